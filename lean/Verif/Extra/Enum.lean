/-
Model of enumerations with names, `lager/extra/enum.hpp`.

An exception is a value of `Ex`; `Except Ex` stands for code that may throw.
-/

namespace Verif.Extra

/-- What `to_string` and `to_enum` throw: `detail::return_from_for_each`, used to leave the loop
(`lager/extra/enum.hpp:40-44`), or `std::runtime_error`. -/
inductive Ex (R : Type) where
  | found (value : R)
  | runtime (what : String)
  deriving DecidableEq

variable {T R : Type}

/-- `enum_meta<T>::apply()`, `lager/extra/enum.hpp:80-97`: the enumerators in the order of the declaration, each with its
name.  Two enumerators may have the same value; a name cannot occur twice in C++, but nothing here relies on that unless
it says so. -/
abbrev Meta (T : Type) := List (T × String)

/-- `boost::hana::for_each` with a function that may throw. -/
def forEach (f : T × String → Except (Ex R) Unit) : Meta T → Except (Ex R) Unit
  | [] => .ok ()
  | x :: xs =>
    match f x with
    | .ok () => forEach f xs
    | .error e => .error e

/-- The `try`/`catch` of both functions, and the exception thrown after it: `lager/extra/enum.hpp:51-60, 66-75`. -/
def search (f : T × String → Except (Ex R) Unit) (what : String) (l : Meta T) : Except (Ex R) R :=
  match forEach f l with
  | .error (.found v) => .ok v
  | .error e => .error e
  | .ok () => .error (.runtime what)

/-- `to_string`, `lager/extra/enum.hpp:48-61`. -/
def toString [DecidableEq T] (l : Meta T) (v : T) : Except (Ex String) String :=
  search (fun x => if x.1 = v then .error (.found x.2) else .ok ()) "unknown enum value" l

/-- `to_enum`, `lager/extra/enum.hpp:63-76`. -/
def toEnum (l : Meta T) (v : String) : Except (Ex T) T :=
  search (fun x => if x.2 = v then .error (.found x.1) else .ok ()) "unknown enum name" l

/-- `save_minimal`, `lager/extra/enum.hpp:105-109`, `lager/extra/cereal/enum.hpp:28-33`. -/
def saveEnum [DecidableEq T] (l : Meta T) (x : T) : Except (Ex String) String := toString l x

/-- `load_minimal`, `lager/extra/enum.hpp:100-104`, `lager/extra/cereal/enum.hpp:21-26`: what the target holds afterwards,
and the exception if there is one. -/
def loadEnum (l : Meta T) (x : T) (s : String) : T × Option (Ex T) :=
  match toEnum l s with
  | .ok v => (v, none)
  | .error e => (x, some e)

theorem search_find (p : T × String → Bool) (g : T × String → R) (what : String) (l : Meta T) :
    search (fun x => if p x then .error (.found (g x)) else .ok ()) what l =
      match l.find? p with
      | some x => .ok (g x)
      | none => .error (.runtime what) := by
  unfold search
  induction l with
  | nil => rfl
  | cons x xs ih =>
    rw [forEach, List.find?_cons]
    cases hp : p x with
    | true => simp
    | false => simpa [hp] using ih

theorem toString_find [DecidableEq T] (l : Meta T) (v : T) : toString l v =
    match l.find? (fun x => x.1 = v) with
    | some x => .ok x.2
    | none => .error (.runtime "unknown enum value") := by
  rw [← search_find]
  unfold toString
  simp

theorem toEnum_find (l : Meta T) (s : String) : toEnum l s =
    match l.find? (fun x => x.2 = s) with
    | some x => .ok x.1
    | none => .error (.runtime "unknown enum name") := by
  rw [← search_find]
  unfold toEnum
  simp

/-- With distinct names the one found is the one looked for. -/
theorem find_name {l : Meta T} (hd : (l.map (·.2)).Nodup) {x : T × String} (hx : x ∈ l) :
    l.find? (fun y => y.2 = x.2) = some x := by
  induction l with
  | nil => cases hx
  | cons y ys ih =>
    rw [List.find?_cons]
    rw [List.map_cons, List.nodup_cons] at hd
    by_cases h : y.2 = x.2
    · simp only [h, decide_true]
      cases hx with
      | head => rfl
      | tail _ hx => exact absurd (List.mem_map.mpr ⟨x, hx, h.symm⟩) hd.1
    · simp only [h, decide_false]
      cases hx with
      | head => exact absurd rfl h
      | tail _ hx => exact ih hd.2 hx

end Verif.Extra
