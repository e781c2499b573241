import Verif.Props.Opening
import Verif.Spec.Demo

/-! # C52, and examples for C41, C44, C45 -/

namespace Hudi
open Spec

/-- **C52.**  An opened table whose options were validated has a name, a type, which is one of the two
kinds of tables, and a time zone; asking for them never panics. -/
theorem C52_accessors (E : Env) (w : World) (b : TableBuilder) (tb : Table) (h : b.build E w = .ok tb)
    (hs : ¬ SkipsValidation tb.hudiOptions) :
    (∃ n, tb.tableName = .ok n ∧ hmGet c!"hoodie.table.name" tb.hudiOptions = some n) ∧
    (∃ ty, tb.tableType = .ok ty ∧ (ty = c!"COPY_ON_WRITE" ∨ ty = c!"MERGE_ON_READ") ∧
      tb.isMor = .ok (decide (ty = c!"MERGE_ON_READ"))) ∧
    (∃ tz, tb.timezone = .ok tz ∧ (tz = c!"utc" ∨ tz = c!"local")) := by
  have hw := C44_opening E w b tb h hs
  refine ⟨?_, ?_, ?_⟩
  · obtain ⟨x, hx⟩ := (hw .tableName (by decide)).resolve_right (fun h => h.2 trivial)
    have hg := (C44_given _ _ _ hx).1
    obtain ⟨v, h1, rfl⟩ := hx
    refine ⟨v, ?_, h1⟩
    unfold Table.tableName
    rw [show Cfg.tableName.get tb.opts = .ok (.string v) from hg]
    rfl
  · obtain ⟨x, hx⟩ := (hw .tableType (by decide)).resolve_right (fun h => h.2 trivial)
    have hg := (C44_given _ _ _ hx).1
    obtain ⟨v, h1, h2⟩ := hx
    have hty : ∃ ty, x = .string ty ∧ (ty = c!"COPY_ON_WRITE" ∨ ty = c!"MERGE_ON_READ") := by
      rcases h2 with ⟨_, rfl⟩ | ⟨_, rfl⟩
      · exact ⟨_, rfl, .inl rfl⟩
      · exact ⟨_, rfl, .inr rfl⟩
    obtain ⟨ty, rfl, h3⟩ := hty
    have ht : tb.tableType = .ok ty := by
      unfold Table.tableType
      rw [show Cfg.tableType.get tb.opts = .ok (.string ty) from hg]
      rfl
    refine ⟨ty, ht, h3, ?_⟩
    unfold Table.isMor
    rw [ht]; rfl
  · unfold Table.timezone timezoneOf
    rcases given_or_not .timelineTimezone tb.opts with ⟨x, hx⟩ | hn
    · rw [(C44_given _ _ _ hx).2.1]
      obtain ⟨v, _, h2, rfl⟩ := hx
      simp only [List.mem_cons, List.not_mem_nil, or_false] at h2
      exact ⟨lower v, rfl, h2⟩
    · rw [((C44_default _ _ hn).2.1 _ rfl).1]
      exact ⟨_, rfl, .inl rfl⟩

namespace Demo

def propsText : Str := c!"# table\nhoodie.table.name=trips\nhoodie.table.type=mor\nhoodie.table.version=6\nhoodie.timeline.layout.version=1\nhoodie.table.precombine.field=ts\nhoodie.x=table"

def confText : Str := c!"hoodie.x global\nhoodie.y\tglobal\nhoodie.z=global\nother=global"

def oStorage : Storage where
  tree := .dir c!".hoodie" (.file c!"hoodie.properties" 1 (.text propsText)
    (.file c!"20240101000000000.commit" 1 .junk .nil)) .nil
  absolute p := if p = c!"/conf/hudi-defaults.conf" then some (.bytes (utf8Encode confText)) else none

def oWorld : World where
  vars := [(c!"HOME", c!"/root"), (c!"AWS_REGION", c!"env"), (c!"AWS_KEY", c!"env"), (c!"HUDI_CONF_DIR", c!"/conf")]
  connect _ uri := if uri = c!"s3://b/t" then .ok oStorage else .err .storage

def oCalls : List Call :=
  [.option c!"hoodie.x" c!"generic", .option c!"hoodie.y" c!"generic", .hudiOption c!"hoodie.y" c!"explicit",
   .options [(c!"aws_region", c!"generic"), (c!"timeout", c!"generic")], .storageOption c!"timeout" c!"explicit"]

def oOpts : Opts :=
  [(c!"hoodie.y", c!"explicit"), (c!"hoodie.base.path", c!"s3://b/t"), (c!"hoodie.x", c!"table"),
   (c!"hoodie.table.name", c!"trips"), (c!"hoodie.table.type", c!"mor"), (c!"hoodie.table.version", c!"6"),
   (c!"hoodie.timeline.layout.version", c!"1"), (c!"hoodie.table.precombine.field", c!"ts"),
   (c!"hoodie.z", c!"global")]

/-- A table opened with options from all five sources: the hypotheses of C41, C44, C45 and C52 hold. -/
example : (builderOf c!"s3://b/t" oCalls).build env oWorld = .ok ⟨oOpts,
    [(c!"timeout", c!"explicit"), (c!"aws_region", c!"generic"), (c!"aws_key", c!"env")],
    ⟨oOpts, [⟨c!"20240101000000000", .commit, .completed, 1704067200000⟩]⟩⟩ ∧
    ¬ SkipsValidation oOpts := by
  refine ⟨?_, by unfold SkipsValidation; decide⟩
  decide +kernel

/-- A user's storage option in upper case is not recognised as the one from the environment: the
environment variable still provides the lower-case option that the object store reads. -/
example : resolveCloudEnvVars [(c!"AWS_REGION", c!"env")] [(c!"AWS_REGION", c!"user")] =
    [(c!"AWS_REGION", c!"user"), (c!"aws_region", c!"env")] := by decide

/-- A table of version 7 is rejected, by a panic. -/
example : (validateConfigs (hmInsert c!"hoodie.table.version" c!"7" oOpts)).expect = .panic := by
  decide +kernel

end Demo
end Hudi
