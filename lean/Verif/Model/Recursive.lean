import Verif.Model.Object
/-
Descriptions that mention themselves, such as

  struct node { int value; std::shared_ptr<node> next; };
  struct node_json {
    JSON_NAME(value)
    JSON_NAME(next)
    typedef wjson::object<node, wjson::member_list<
      wjson::member<n_value, node, int, &node::value>,
      wjson::member<n_next, node, std::shared_ptr<node>, &node::next,
        wjson::pointer<std::shared_ptr<node>, node_json> > > > type;
    typedef type::target target;
    typedef type::serializer serializer;
  };

`pointer<T,J>` (wjson/specialization/pointer.hpp:14-19) does not look into `J` before its operators are
instantiated (wjson/serializer/pointer.hpp:23,41,58), so that this is legal. Its reader and its writer are recursive functions.
-/
namespace Wjson

/-- `F` is the description with a place for itself (`node_json` above with a parameter). `levels F S n` is the serializer
for `n` levels of calls of itself, with `S` in place of the call below. -/
def levels {α : Type} (F : Ser α → Ser α) (S : Ser α) : Nat → Ser α
  | 0 => S
  | n + 1 => F (levels F S n)

/-- What is below the last level: a call that has not returned yet. -/
def unfinished {α : Type} (d : α) : Ser α := ⟨d, fun _ _ => .fuel, fun _ _ _ => .fuel⟩

/-- The recursive reader: `typename J::serializer()(*ptr, beg, end, e)` in wjson/serializer/pointer.hpp:41,58 with the
description itself as `J`, with as many levels of calls as the text has bytes, and one more. `d` is the default value of the target.
C83 shows that this is enough for every text, and that this is the only function that satisfies the recursive
definition. -/
def recDe {α : Type} (F : Ser α → Ser α) (d : α) : De α := fun v s e => (levels F (unfinished d) (s.length + 1)).de v s e

/-- The recursive writer: `typename J::serializer()( *ptr, itr)` in wjson/serializer/pointer.hpp:23 with the description
itself as `J`. It returns `r` if it does so with some number of levels of calls. Values are trees in this model: a
`shared_ptr` that leads back to itself is not one, and is not written in any number of levels. -/
def RecEmit {α : Type} (F : Ser α → Ser α) (d : α) (v : α) (k : Sink) (r : Sink) : Prop :=
  ∃ n, (levels F (unfinished d) n).emit v k = .ok r

end Wjson
