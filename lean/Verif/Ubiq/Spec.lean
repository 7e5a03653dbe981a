import Verif.Ubiq.Model

/-! # Smartphone logs (UbiqLog): specification -/

set_option autoImplicit false

namespace Verif.Ubiq

/-- What an event says: an application was used for less than a minute, or it was started, or ended. -/
inductive Kind
  | instant
  | start
  | stop
  deriving DecidableEq

/-- The last letter of the name of an event. -/
def Kind.letter : Kind → ℕ
  | .instant => 73
  | .start => 83
  | .stop => 69

/-- The name of an event: process, underscore, letter. -/
def eventName (p : Str) (k : Kind) : Str := p ++ [95, k.letter]

/-- The line tells that such an event happened at time `t`. -/
def Rec.Tells (r : Rec) (p : Str) (t : ℤ) : Kind → Prop
  | .instant => r.process = p ∧ ∃ b, r.dates = some (t, b) ∧ b - t < 60
  | .start => r.process = p ∧ ∃ b, r.dates = some (t, b) ∧ 60 ≤ b - t
  | .stop => r.process = p ∧ ∃ a, r.dates = some (a, t) ∧ 60 ≤ t - a

/-- An event of a user in the log. -/
def Happens (log : List Rec) (u : ℕ) (p : Str) (k : Kind) (t : ℤ) : Prop := ∃ r ∈ log, r.user = u ∧ r.Tells p t k

/-- The line is a use of the application of less than a minute (`false`) or not (`true`). -/
def Rec.isUse (r : Rec) (u : ℕ) (p : Str) (long : Bool) : Bool :=
  decide (r.user = u) && decide (r.process = p) && match r.dates with
    | none => false
    | some (a, b) => decide (60 ≤ b - a) == long

/-- How many times such an event is in the log. -/
def number (log : List Rec) (u : ℕ) (p : Str) (k : Kind) : ℕ := log.countP (fun r => r.isUse u p (k != .instant))

/-- All the dates of the user can be parsed. -/
def AllParsed (log : List Rec) (u : ℕ) : Prop := ∀ r ∈ log, r.user = u → r.dates ≠ none

end Verif.Ubiq
