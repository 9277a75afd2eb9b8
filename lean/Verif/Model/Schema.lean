import Verif.Basic
/-
Model of wjson/schema.hpp.
-/
namespace Wjson

/-- What a type offers to wjson/schema.hpp: the static functions
`create_schema()`, `create_schema(T&)`, `create_schema(const string&)`,
`create_schema(T&, const string&)` and `get_schema_list()`, each present or not
(the detection of wjson/schema.hpp:27-52 is the job of the external library fas
and trusted). `dflt` is `T()`. -/
structure SchemaTy (α : Type) where
  dflt : α
  s1 : Option α := none
  s2 : Option (α → α) := none
  s3 : Option (Bytes → α) := none
  s4 : Option (α → Bytes → α × Bool) := none
  list : Option (List Bytes) := none

/-- `schema::get_schema_list<T>()`, wjson/schema.hpp:90-94, 163-173. -/
def schemaList {α : Type} (T : SchemaTy α) : List Bytes :=
  match T.list with
  | some l => l
  | none => []

/-- One pass of the outer loop of `get_schema_list`, wjson/schema.hpp:102-118;
the inner loop is a search. -/
def schemaStep (r : List Bytes × Bool) (n : Bytes) : List Bytes × Bool :=
  if r.1.any (fun x => n == x) then r else (r.1 ++ [n], true)

/-- `schema::get_schema_list<T>(schemas)`, wjson/schema.hpp:96-120: the new
contents of the vector and the result. -/
def schemaAppend {α : Type} (T : SchemaTy α) (schemas : List Bytes) : List Bytes × Bool :=
  (schemaList T).foldl schemaStep (schemas, false)

/-- `create_schema1_`, wjson/schema.hpp:213-225. -/
def createSchema1 {α : Type} (T : SchemaTy α) : α × Bool :=
  match T.s1 with
  | some x => (x, true)
  | none => (T.dflt, true)

/-- `create_schema2_`, wjson/schema.hpp:200-211. -/
def createSchema2 {α : Type} (T : SchemaTy α) (obj : α) : α × Bool :=
  match T.s2 with
  | some f => (f obj, true)
  | none => createSchema1 T

/-- `create_schema3_` and the last branch of `create_schema4_`, wjson/schema.hpp:181-198. -/
def createSchema3 {α : Type} (T : SchemaTy α) (obj : α) (name : Bytes) : α × Bool :=
  match T.s3 with
  | some f => (f name, true)
  | none => createSchema2 T obj

/-- `schema::create_schema<T>(obj, name)`, wjson/schema.hpp:130-134, 175-185: the
new value of `obj` and the result. -/
def createSchema {α : Type} (T : SchemaTy α) (obj : α) (name : Bytes := []) : α × Bool :=
  match T.s4 with
  | some f => f obj name
  | none => createSchema3 T obj name

/-- `schema::create_schema<T>(name)`, wjson/schema.hpp:122-128. The choice
depends on the presence of `create_schema(const string&)` but the function
called is `create_schema(T&, const string&)`: `none` when the type has only the
former, and the program does not compile. -/
def createSchemaV {α : Type} (T : SchemaTy α) (name : Bytes := []) : Option α :=
  match T.s3 with
  | some _ =>
    match T.s4 with
    | some f => some (f T.dflt name).1
    | none => none
  | none => some (createSchema3 T T.dflt name).1

/-- The two loops of `create_schema(obj, names)`, wjson/schema.hpp:145-154. -/
def firstListed (schemas : List Bytes) : List Bytes → Option Bytes
  | [] => none
  | n :: ns => if schemas.any (fun x => x == n) then some n else firstListed schemas ns

/-- `schema::create_schema<T>(obj, names)`, wjson/schema.hpp:136-159. -/
def createSchemaL {α : Type} (T : SchemaTy α) (obj : α) (names : List Bytes) : α × Bool :=
  match names with
  | [] => createSchema T obj
  | n :: ns =>
    match (if (schemaList T).isEmpty then none else firstListed (schemaList T) (n :: ns)) with
    | some m => createSchema T obj m
    | none => createSchema T obj ((n :: ns).getLast (by simp))

end Wjson
