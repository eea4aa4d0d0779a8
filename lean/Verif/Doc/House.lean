import Verif.Store.Props17

/-!
The house of the documentation of cursors, `doc/cursors.rst:331-584`: a store for a house with rooms, and components of the user
interface that know nothing but their room.
-/

namespace Verif.House

open Verif.Store

/-- `room`, `doc/cursors.rst:342-345`. -/
structure Room where
  lightOn : Bool
deriving DecidableEq

/-- `room_action`, `:347-348`. -/
inductive RoomAct where
  | toggle
deriving DecidableEq

/-- `update_room`, `:350-357`. -/
def updateRoom (r : Room) : RoomAct → Room
  | .toggle => ⟨!r.lightOn⟩

/-- `house`, `:359-362`; an `immer::map` is a partial function. -/
abbrev House := String → Option Room

/-- `house_action`, `:364-375`. -/
inductive Act where
  | change (id : String) (a : RoomAct)
  | add (id : String) (r : Room)
deriving DecidableEq

/-- `immer::map::set`, an assumption about `immer`. -/
def House.set (h : House) (id : String) (r : Room) : House := fun k => if k = id then some r else h k

/-- `room{}`, which `operator[]` of `immer::map` and `or_default` give if there is none. -/
def noRoom : Room := ⟨false⟩

/-- `update`, `:377-393`. -/
def update (h : House) : Act → House
  | .change id a => h.set id (updateRoom ((h id).getD noRoom) a)
  | .add id r => h.set id r

/-- The store, `:420-424`, with any house at first.  `house` has no `==`, so that every new value counts as a change. -/
def cfg (init : House) : Cfg Act House where
  reducer h a := (update h a, .empty)
  changed _ _ := true
  trans := false
  hasF := false
  init := init

/-- What the reader `light_on` of a component gives, `:440-445`, `:571`. -/
def light (id : String) (h : House) : Bool := ((h id).getD noRoom).lightOn

/-- `light_state`, `:562-564`. -/
def lightState (on : Bool) : String := if on then "light is on" else "light is off"

/-- `room_component`, `:554-584`: what its reader `light_on` has, and the text of its label. -/
structure Component where
  id : String
  on : Bool
  label : String

/-- The constructor, `:566-575`. -/
def Component.make (id : String) (h : House) : Component := ⟨id, light id h, lightState (light id h)⟩

/-- What happens to it: when the store notifies, the callback is called if the value of `light_on` has changed, `:576-578`. -/
def Component.see (k : Component) : SEv Act House → Component
  | .shown h => if light k.id h = k.on then k else { k with on := light k.id h, label := lightState (light k.id h) }
  | _ => k

/-- The button, `:580-582`, with the conversion of the context, `:542-547`. -/
def Component.click (k : Component) : Act := .change k.id .toggle

end Verif.House
