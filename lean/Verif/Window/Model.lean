import Mathlib.Data.Int.Notation
import Mathlib.Algebra.Order.Ring.Int

/-!
# Sliding windows (C170)

Source: `/repo/skmine/utils.py:199-308`. An array of numpy is a piece of memory with a first address, a shape and strides (here counted in elements and not in bytes). The arguments `subok` and `writeable` are left out.
-/

set_option autoImplicit false

namespace Verif.Window

variable {β : Type*}

/-- An array: the element at an index is at the address `off + Σ idx[d] * strides[d]`. -/
structure Arr (β : Type*) where
  mem : ℤ → β
  off : ℤ
  shape : List ℕ
  strides : List ℤ

/-- `Σ idx[d] * strides[d]`. -/
def dot : List ℕ → List ℤ → ℤ
  | i :: is, s :: ss => i * s + dot is ss
  | _, _ => 0

/-- The element of an array at an index; numpy does not look at the memory for an index that is not within the shape. -/
def Arr.get (x : Arr β) (idx : List ℕ) : β := x.mem (x.off + dot idx x.strides)

/-- The exceptions: all are kinds of `ValueError` (`AxisError` is one). -/
inductive Err where
  | negative
  | lengths
  | axis
  | tooLarge
  deriving DecidableEq

/-- `normalize_axis_tuple(axis, ndim, allow_duplicate=True)`, used at `/repo/skmine/utils.py:294`: a negative axis counts from the end. -/
def normAxis (n : ℕ) (axis : List ℤ) : Except Err (List ℕ) :=
  if axis.all (fun a => decide (-(n : ℤ) ≤ a ∧ a < n)) then .ok (axis.map (fun a => (if a < 0 then a + (n : ℤ) else a).toNat)) else .error .axis

/-- The axes, `/repo/skmine/utils.py:288-297`: all axes by default; as many as the window has sizes. -/
def axesOf (n w : ℕ) (axis : Option (List ℤ)) : Except Err (List ℕ) :=
  match axis with
  | none => if w ≠ n then .error .lengths else .ok (List.range n)
  | some a =>
    match normAxis n a with
    | .error e => .error e
    | .ok ax => if w ≠ ax.length then .error .lengths else .ok ax

/-- The trimmed shape, `/repo/skmine/utils.py:301-306`. -/
def trim : List ℕ → List (ℕ × ℕ) → Except Err (List ℕ)
  | shape, [] => .ok shape
  | shape, (ax, dim) :: ps => if shape.getD ax 0 < dim then .error .tooLarge else trim (shape.set ax (shape.getD ax 0 + 1 - dim)) ps

/-- `sliding_window_view(x, window_shape, axis)`, `/repo/skmine/utils.py:280-308`; a single size is a list of one. -/
def slide (x : Arr β) (window : List ℤ) (axis : Option (List ℤ)) : Except Err (Arr β) :=
  if window.any (fun w => decide (w < 0)) then .error .negative
  else
    match axesOf x.shape.length window.length axis with
    | .error e => .error e
    | .ok ax =>
      let w := window.map Int.toNat
      match trim x.shape (ax.zip w) with
      | .error e => .error e
      | .ok s => .ok ⟨x.mem, x.off, s ++ w, x.strides ++ ax.map (fun a => x.strides.getD a 0)⟩

end Verif.Window
