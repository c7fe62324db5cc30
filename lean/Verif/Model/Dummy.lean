import Verif.Model.Getters
import Verif.Model.Section
/-
dummy.go: the dummy store. Its only field is the prefix, which nothing but `Prefix` reads.
-/
namespace Verif
namespace Dummy
variable {α β κ : Type} [Inhabited α]

/-- dummy.go:23 `MustGet`, 24 `Get`, 46 `Has`, 43 `Remove`, 26-27 `SetComment`, `SetTag`. -/
def mustGet (_path : Str) : α := default
/-- dummy.go:24 `Get`. -/
def get (_path : Str) : α × Bool := (default, false)
/-- dummy.go:46 `Has`. -/
def has (_path : Str) : Bool := false
/-- dummy.go:43 `Remove`. -/
def remove (_path : Str) : Bool := false
/-- dummy.go:26 `SetComment`. -/
def setComment (_path _desc _comment : Str) : Bool := false
/-- dummy.go:27 `SetTag`. -/
def setTag (_path : Str) (_tag : Option α) : Bool := false
/-- dummy.go:34-39: the description and whether there is no error. -/
def getDesc (_path : Str) : Str × Bool := ([], true)
/-- dummy.go:40-41 `GetEx`: what the callback is called with. -/
def getEx (_path : Str) : Option (Node α) := none
/-- dummy.go:50-52 `Locate`. -/
def locate (_path : Str) : Option (Node α) × Bool × Bool × Bool := (none, false, false, false)
/-- dummy.go:54-318, the typed getters: (value, err != nil). -/
def getTyped (zero : β) (_path : Str) (_defaults : List β) : β × Bool := (zero, false)
/-- dummy.go:53-328: the typed getters. -/
def mustTyped (zero : β) (_path : Str) (_defaults : List β) : β := zero
/-- dummy.go:318-326 `GetR`, `GetM`. -/
def getM (_path : Str) (_o : MOpts α κ) : Option (SMap α κ) := none
/-- dummy.go:335 `Walk`: the nodes the callback sees. -/
def walk (_path : Str) : List (Node α) := []

end Dummy
end Verif
