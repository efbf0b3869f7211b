import Verif.Model.Throw

/-!
# What may be left behind by a load
-/

namespace Pigo.Spec


variable {W : Type}

/-- Every block left is empty. -/
def NothingLeft (L : List Blk) : Prop := ∀ b ∈ L, b.size = 0

/-- The non-empty blocks, as (array, number of elements). -/
def arrays (L : List Blk) : List (Arr × Nat) := (L.filter (fun b => b.size != 0)).map (fun b => (b.arr, b.size))

/-- The non-empty ones of the given arrays. -/
def nonEmpty (l : List (Arr × Nat)) : List (Arr × Nat) := l.filter (fun a => a.2 != 0)

/-- The arrays a COO holds. -/
def ofCoo (wgt : Bool) (c : Coo W) : List (Arr × Nat) := [(.x, c.m), (.y, c.m)] ++ if wgt then [(.w, c.m)] else []

/-- The arrays a CSR holds. -/
def ofCsr (wgt : Bool) (c : Csr W) : List (Arr × Nat) :=
  [(.endpoints, c.m)] ++ (if wgt then [(.weights, c.m)] else []) ++ [(.offsets, c.offsets.length)]

/-- The arrays a tensor holds. -/
def ofTensor (wgt : Bool) (t : Tensor W) : List (Arr × Nat) :=
  [(.coords, t.c.length)] ++ if wgt then [(.weights, t.m)] else []

/-- No array of the class is in raw pointer storage. -/
def Managed (st : Stor) (ws : Storage) : Prop := st.l ≠ .pointer ∧ st.o ≠ .pointer ∧ ws ≠ .pointer

/-- The load threw an exception. -/
def Threw {α : Type} (o : M α) : Prop := o = .error .error ∨ o = .error .nyi

end Pigo.Spec
