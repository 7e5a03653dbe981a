import Verif.Slim.Spec
import Mathlib.Analysis.SpecialFunctions.Log.Base

/-!
# Sizes of a data base compressed with a code table

This file does not mention the algorithm. `Table` entries are pairs (itemset, transactions it covers).
-/

set_option autoImplicit false

namespace Verif.Slim

variable {α : Type*} [DecidableEq α]

/-- The number of transactions that contain `a`. -/
def freq (D : List (List α)) (a : α) : ℕ := D.countP (fun tr => decide (a ∈ tr))

/-- The number of items of all transactions. -/
def volume (D : List (List α)) : ℕ := (D.map (fun tr => tr.toFinset.card)).sum

/-- Code length of an item when every transaction is written item by item. -/
noncomputable def stdLen (D : List (List α)) (a : α) : ℝ := -Real.logb 2 ((freq D a : ℝ) / volume D)

/-- The number of uses of all itemsets of the table. -/
def uses (tab : List (Finset α × Finset ℕ)) : ℕ := (tab.map (fun e => e.2.card)).sum

/-- Code length of an itemset of the table: minus the logarithm of its share of the uses. -/
noncomputable def codeLen (tab : List (Finset α × Finset ℕ)) (e : Finset α × Finset ℕ) : ℝ := -Real.logb 2 ((e.2.card : ℝ) / uses tab)

/-- Length of transaction number `t` when itemset `e` of the table has a code of length `len e`. -/
def transBits (len : Finset α × Finset ℕ → ℝ) (tab : List (Finset α × Finset ℕ)) (t : ℕ) : ℝ := ((tab.filter (fun e => decide (t ∈ e.2))).map len).sum

/-- Length of the first `n` transactions. -/
def dataBits (len : Finset α × Finset ℕ → ℝ) (tab : List (Finset α × Finset ℕ)) (n : ℕ) : ℝ := ∑ t ∈ Finset.range n, transBits len tab t

/-- Length of the code table: every itemset in use is written item by item, followed by its code. -/
noncomputable def modelBits (D : List (List α)) (tab : List (Finset α × Finset ℕ)) : ℝ :=
  ((tab.filter (fun e => decide (e.2 ≠ ∅))).map (fun e => ∑ a ∈ e.1, stdLen D a + codeLen tab e)).sum

end Verif.Slim
