/-
Model of derived equality and hashing, `lager/extra/derive/eq.hpp`, `lager/extra/derive/hash.hpp`.

`std::size_t` has 64 bits.
-/

namespace Verif.Extra

/-- A member listed in a `LAGER_DERIVE` declaration of a type `S`: how to read it, the `==` of its type and the `std::hash`
of its type. -/
structure Member (S : Type) where
  ty : Type
  get : S → ty
  eq : ty → ty → Bool
  hash : ty → UInt64

variable {S : Type}

/-- `LAGER_DERIVE_IMPL_EQ`, `lager/extra/derive/eq.hpp:18-26` (templates and nested declarations: lines 34-42, 52-57):
`true && a.m1 == b.m1 && ...`. -/
def derivedEq (ms : List (Member S)) (a b : S) : Bool :=
  ms.foldl (fun r m => r && m.eq (m.get a) (m.get b)) true

/-- `operator!=`, `lager/extra/derive/eq.hpp:27-30`. -/
def derivedNe (ms : List (Member S)) (a b : S) : Bool := !derivedEq ms a b

/-- The constant of `lager/extra/derive/hash.hpp:25`. -/
def golden : UInt64 := 0x9e3779b9

/-- `LAGER_DERIVE_IMPL_HASH_ITER__`, `lager/extra/derive/hash.hpp:24-26`. -/
def hashStep (x : S) (seed : UInt64) (m : Member S) : UInt64 :=
  seed ^^^ (m.hash (m.get x) + golden + (seed <<< 6) + (seed >>> 2))

/-- `LAGER_DERIVE_IMPL_HASH`, `lager/extra/derive/hash.hpp:28-42`, where the seed is 0, and
`LAGER_DERIVE_TEMPLATE_IMPL_HASH`, lines 44-59, where it is the `hash_code` of the type. -/
def derivedHash (seed : UInt64) (ms : List (Member S)) (x : S) : UInt64 := ms.foldl (hashStep x) seed

theorem hashStep_congr {a b : S} {m : Member S} (seed : UInt64) (h : m.hash (m.get a) = m.hash (m.get b)) :
    hashStep a seed m = hashStep b seed m := by
  unfold hashStep
  rw [h]

theorem hashStep_inj {a b : S} {m : Member S} {seed : UInt64} (h : hashStep a seed m = hashStep b seed m) :
    m.hash (m.get a) = m.hash (m.get b) := by
  unfold hashStep at h
  have h := (UInt64.xor_right_inj _).mp h
  rw [UInt64.add_left_inj, UInt64.add_left_inj, UInt64.add_left_inj] at h
  exact h

theorem foldl_and (ms : List (Member S)) (a b : S) (r : Bool) :
    ms.foldl (fun r m => r && m.eq (m.get a) (m.get b)) r = (r && ms.all fun m => m.eq (m.get a) (m.get b)) := by
  induction ms generalizing r with
  | nil => simp
  | cons m ms ih => rw [List.foldl_cons, ih, List.all_cons, Bool.and_assoc]

theorem derivedEq_all (ms : List (Member S)) (a b : S) :
    derivedEq ms a b = ms.all fun m => m.eq (m.get a) (m.get b) := by
  rw [derivedEq, foldl_and, Bool.true_and]

end Verif.Extra
