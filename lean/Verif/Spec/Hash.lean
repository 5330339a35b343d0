import Verif.Model.Hash
/-
What `Eq` and `Hash` promise.
-/
namespace Iodyn

/-- `==` is an equivalence, and equal values write the same to every hasher (documentation of `std::cmp::Eq` and `std::hash::Hash`). -/
class LawfulHash (α : Type) [EqHash α] : Prop where
  refl : ∀ a : α, EqHash.eq a a = true
  symm : ∀ a b : α, EqHash.eq a b = true → EqHash.eq b a = true
  trans : ∀ a b c : α, EqHash.eq a b = true → EqHash.eq b c = true → EqHash.eq a c = true
  hash : ∀ a b : α, EqHash.eq a b = true → EqHash.feed a = EqHash.feed b

/-- Values are `==` only if they are the same. -/
class ExactEq (α : Type) [EqHash α] : Prop where
  iff : ∀ a b : α, EqHash.eq a b = true ↔ a = b

end Iodyn
