import Verif.Model.SessionTensor
import Verif.Spec.Session

/-!
# Specification: programs over tensors
-/

namespace Pigo.Session.Spec

variable {W : Type}

/-- The tensor has order `k` and the entries `es`, in this order: coordinates and (if there are weights) weights. -/
structure TensorIs (wgt : Bool) (t : Tensor W) (k : Nat) (es : List (List Nat × W)) : Prop where
  order : t.order = k
  m : t.m = es.length
  len : ∀ e ∈ es, e.1.length = k
  c : t.c = es.flatMap (fun e => e.1)
  w : t.w = if wgt then es.map (fun e => e.2) else []

/-- When a program may be run on a tensor of order `k` with the entries `es`: the sizes of the types fit the size bytes of the header,
labels hold the coordinates and ordinals the sizes, the weights are `ok`, every operation has a thread, and text is written only of a
tensor with an entry and an order, to a file whose name stands for no other format and whose last page is not full. -/
structure TReady (E : Types W) (ok : W → Prop) (p : List (Nat × TOp)) (k : Nat) (es : List (List Nat × W)) : Prop where
  lb : E.lb < 256
  ob : E.ob < 256
  cw : E.cw.size < 256
  labels : ∀ e ∈ es, ∀ x ∈ e.1, x < 2 ^ (8 * E.lb)
  weights : E.wk.wgt = true → ∀ e ∈ es, ok e.2
  order : k + 1 < 2 ^ (8 * E.ob)
  m : es.length < 2 ^ (8 * E.ob)
  size : k * es.length < 2 ^ (8 * E.ob)
  threads : ∀ q ∈ p, 0 < q.1
  text : ∀ T fn pad, (T, TOp.write fn pad) ∈ p → PlainName fn ∧ 0 < pad ∧ 0 < k ∧ es ≠ []

end Pigo.Session.Spec
