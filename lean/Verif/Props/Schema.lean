import Verif.Proofs.Schema
/-
C45: schema lists.
-/
namespace Wjson

/-- C45. `get_schema_list(v)` leaves what is in `v` in place and appends the
names of the type that are not in `v`, in the order of their first occurrence in
the type's list, each once; it returns true iff there is such a name. -/
theorem C45_append {α : Type} (T : SchemaTy α) (l v : List Bytes) (hl : T.list = some l) :
    schemaAppend T v = (v ++ (l.filter (fun n => decide (n ∉ v))).eraseDups, decide (∃ n ∈ l, n ∉ v)) := by
  rw [schemaAppend, schemaList, hl, schema_fold]
  simp

/-- C45. The same in terms of the result only: `new` is the appended part. -/
theorem C45_append_new {α : Type} (T : SchemaTy α) (l v : List Bytes) (hl : T.list = some l) :
    ∃ new, schemaAppend T v = (v ++ new, !new.isEmpty) ∧ new.Nodup ∧ ∀ n, n ∈ new ↔ n ∈ l ∧ n ∉ v := by
  refine ⟨(l.filter (fun n => decide (n ∉ v))).eraseDups, ?_, nodup_eraseDups _, ?_⟩
  · rw [C45_append T l v hl, Prod.mk.injEq]
    refine ⟨rfl, ?_⟩
    by_cases h : ∃ n ∈ l, n ∉ v
    · obtain ⟨n, h1, h2⟩ := h
      rw [decide_eq_true ⟨n, h1, h2⟩]
      have hm : n ∈ (l.filter (fun n => decide (n ∉ v))).eraseDups := by
        rw [List.mem_eraseDups]; simp [h1, h2]
      cases hx : (l.filter (fun n => decide (n ∉ v))).eraseDups with
      | nil => rw [hx] at hm; cases hm
      | cons _ _ => rfl
    · rw [decide_eq_false h]
      have : l.filter (fun n => decide (n ∉ v)) = [] := by
        rw [List.filter_eq_nil_iff]
        intro n hn hd
        exact h ⟨n, hn, of_decide_eq_true hd⟩
      rw [this]; rfl
  · intro n
    rw [List.mem_eraseDups]
    simp

/-- C45. A second call appends nothing and returns false. -/
theorem C45_append_again {α : Type} (T : SchemaTy α) (v : List Bytes) :
    schemaAppend T (schemaAppend T v).1 = ((schemaAppend T v).1, false) := by
  cases hl : T.list with
  | none => simp [schemaAppend, schemaList, hl]
  | some l =>
    obtain ⟨new, h1, _, h3⟩ := C45_append_new T l v hl
    obtain ⟨new', h4, _, h6⟩ := C45_append_new T l (v ++ new) hl
    have : new' = [] := by
      cases hx : new' with
      | nil => rfl
      | cons n t =>
        obtain ⟨a, b⟩ := (h6 n).mp (by rw [hx]; simp)
        exact absurd (by by_cases hv : n ∈ v <;> simp [h3, hv, a]) b
    rw [h1]
    simp only
    rw [h4, this]
    simp

/-- C45. A type without `get_schema_list` has no schemas: nothing is appended. -/
theorem C45_append_without_list {α : Type} (T : SchemaTy α) (hl : T.list = none) (v : List Bytes) :
    schemaAppend T v = (v, false) := by simp [schemaAppend, schemaList, hl]

/-- C45. `create_schema(obj, names)` uses the first requested name the type lists. -/
theorem C45_create_first_listed {α : Type} (T : SchemaTy α) (l a b : List Bytes) (n : Bytes) (obj : α)
    (hl : T.list = some l) (ha : ∀ x ∈ a, x ∉ l) (hn : n ∈ l) :
    createSchemaL T obj (a ++ n :: b) = createSchema T obj n := by
  have hne : l.isEmpty = false := by cases l with
    | nil => cases hn
    | cons => rfl
  have hs : schemaList T = l := by simp [schemaList, hl]
  have := firstListed_some (b := b) ha hn
  cases a with
  | nil =>
    simp only [List.nil_append] at this ⊢
    simp only [createSchemaL, hs, hne, this]
    rfl
  | cons x a =>
    simp only [List.cons_append] at this ⊢
    simp only [createSchemaL, hs, hne, this]
    rfl

/-- C45. If the type lists none of the requested names, the last one is used. -/
theorem C45_create_none_listed {α : Type} (T : SchemaTy α) (a : List Bytes) (n : Bytes) (obj : α)
    (ha : ∀ l, T.list = some l → ∀ x ∈ a ++ [n], x ∉ l) :
    createSchemaL T obj (a ++ [n]) = createSchema T obj n := by
  have hf : firstListed (schemaList T) (a ++ [n]) = none := by
    cases hl : T.list with
    | none =>
      have : schemaList T = [] := by simp [schemaList, hl]
      rw [this]
      exact firstListed_none (by simp)
    | some l =>
      have : schemaList T = l := by simp [schemaList, hl]
      rw [this]
      exact firstListed_none (ha l hl)
  cases a with
  | nil =>
    simp only [List.nil_append] at hf ⊢
    simp [createSchemaL, hf]
  | cons x a =>
    simp only [List.cons_append] at hf ⊢
    have : (x :: (a ++ [n])).getLast (by simp) = n := by
      rw [List.getLast_cons (by simp), List.getLast_concat]
    simp only [createSchemaL, hf, ite_self, this]

/-- C45. Without a request the call is `create_schema(obj)` with the empty name. -/
theorem C45_create_no_request {α : Type} (T : SchemaTy α) (obj : α) :
    createSchemaL T obj [] = createSchema T obj [] := rfl

/-- C45. `create_schema(obj, name)`: the type's `create_schema(T&, name)` decides
alone when there is one; otherwise the object is replaced by
`create_schema(name)`, else passed to `create_schema(T&)`, else replaced by
`create_schema()`, else by `T()`, and the result is true. -/
theorem C45_create_priority {α : Type} (T : SchemaTy α) (obj : α) (name : Bytes) :
    (∀ f, T.s4 = some f → createSchema T obj name = f obj name) ∧
    (T.s4 = none → ∀ f, T.s3 = some f → createSchema T obj name = (f name, true)) ∧
    (T.s4 = none → T.s3 = none → ∀ f, T.s2 = some f → createSchema T obj name = (f obj, true)) ∧
    (T.s4 = none → T.s3 = none → T.s2 = none → ∀ x, T.s1 = some x → createSchema T obj name = (x, true)) ∧
    (T.s4 = none → T.s3 = none → T.s2 = none → T.s1 = none → createSchema T obj name = (T.dflt, true)) := by
  refine ⟨?_, ?_, ?_, ?_, ?_⟩ <;> intros <;> simp [createSchema, createSchema3, createSchema2, createSchema1, *]

/-- C45. The by-value `create_schema<T>(name)` agrees with `create_schema(obj, name)`
applied to `T()` exactly for the types that have both functions with a name or
neither: with only `create_schema(name)` it does not compile, and with only
`create_schema(T&, name)` it ignores that function. -/
theorem C45_by_value {α : Type} (T : SchemaTy α) (name : Bytes) :
    ((T.s3.isSome = T.s4.isSome) → createSchemaV T name = some (createSchema T T.dflt name).1) ∧
    (T.s3.isSome = true → T.s4 = none → createSchemaV T name = none) ∧
    (T.s3 = none → T.s4.isSome = true → createSchemaV T name = some (createSchema { T with s4 := none } T.dflt name).1) := by
  refine ⟨?_, ?_, ?_⟩
  · cases h3 : T.s3 <;> cases h4 : T.s4 <;> simp [createSchemaV, createSchema, h3, h4]
  · intro h h4
    cases h3 : T.s3 with
    | none => rw [h3] at h; cases h
    | some _ => simp [createSchemaV, h3, h4]
  · intro h3 h4
    simp [createSchemaV, createSchema, createSchema3, createSchema2, createSchema1, h3]

/-- A type with schemas `full`, `mini`, `full`; every function records what it got. -/
def demoSchema : SchemaTy Bytes :=
  { dflt := b!"T()"
    s1 := some b!"one"
    s4 := some fun o n => (o ++ b!":" ++ n, n != b!"bad")
    list := some [b!"full", b!"mini", b!"full"] }

example : schemaAppend demoSchema [b!"other", b!"mini"] = ([b!"other", b!"mini", b!"full"], true) := by decide
example : createSchemaL demoSchema b!"x" [b!"zzz", b!"mini", b!"full"] = (b!"x:mini", true) := by decide
example : createSchemaL demoSchema b!"x" [b!"zzz", b!"bad"] = (b!"x:bad", false) := by decide
example : createSchemaL demoSchema b!"x" [] = (b!"x:", true) := by decide
example : createSchemaV demoSchema b!"mini" = some b!"one" := by decide
example : demoSchema.list = some [b!"full", b!"mini", b!"full"] ∧ (∀ x ∈ [b!"zzz"], x ∉ [b!"full", b!"mini", b!"full"]) ∧
    b!"mini" ∈ [b!"full", b!"mini", b!"full"] := by decide

end Wjson
