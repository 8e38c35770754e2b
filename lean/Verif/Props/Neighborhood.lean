import Verif.Lemmas.Neighborhood
import Verif.Lemmas.MultiIndex
import Verif.Props.MultiIndex
/-!
# Property C05: neighbour generation and neighbour tests

`Spec.inc v i` / `Spec.dec v i` add / remove one unit in dimension `i`; `Spec.Fwd v w` says
`w = v + e_i` for some dimension `i`.
-/
namespace MParT
namespace Neighborhood
open MultiIndex Spec

/-- **C05.** `ForwardNeighbors(m)` is `m + e_0, m + e_1, ...` in order, one per dimension. -/
theorem C05_forward {m : MultiIndex} {v : List Nat} (h : Built m v) :
    ∃ out, forwardNeighbors m = .ok out ∧ out.length = v.length ∧
      ∀ i, i < v.length → ∃ w, out[i]? = some w ∧ Built w (inc v i) := by
  obtain rfl := h.eq_ofVec
  refine ⟨_, forwardNeighbors_ofVec v, by simp [fwdList], fun i hi => ?_⟩
  refine ⟨ofVec (inc v i), ?_, Built.ofVec _⟩
  simp [fwdList, hi]

/-- **C05.** `BackwardNeighbors(m)` is `m - e_i` for the nonzero dimensions `i`, in order, once
each. -/
theorem C05_backward {m : MultiIndex} {v : List Nat} (h : Built m v) :
    ∃ out, backwardNeighbors m = .ok out ∧
      out = ((List.range v.length).filter (fun i => v.getD i 0 ≠ 0)).map (fun i => ofVec (dec v i)) ∧
      out.Nodup ∧ out.length = nnz v := by
  obtain rfl := h.eq_ofVec
  refine ⟨_, backwardNeighbors_ofVec v, by simp [bwdList], ?_, by simp [bwdList_length]⟩
  exact (bwdList_nodup v).map (fun a b h => ofVec_injective h)

/-- **C05.** The neighbour tests never throw on multi-indices of the same length, and they agree
with each other, with the generated lists and with the mathematical relation. -/
theorem C05_tests_agree {a b : MultiIndex} {u v : List Nat} (ha : Built a u) (hb : Built b v)
    (hl : u.length = v.length) :
    ∃ r fs bs, isForward a b = .ok r ∧ isBackward b a = .ok r ∧
      forwardNeighbors a = .ok fs ∧ backwardNeighbors b = .ok bs ∧
      (r = true ↔ Fwd u v) ∧ (b ∈ fs ↔ Fwd u v) ∧ (a ∈ bs ↔ Fwd u v) := by
  obtain rfl := ha.eq_ofVec
  obtain rfl := hb.eq_ofVec
  refine ⟨_, _, _, isForward_ofVec hl, isForward_ofVec hl, forwardNeighbors_ofVec u,
    backwardNeighbors_ofVec v, by simp, ?_, ?_⟩
  · rw [← mem_fwdList]; simp
  · rw [← mem_bwdList]; simp

-- concrete instance: all tests on a forward pair and on a non-neighbour pair
example : isForward (ofVec [1, 0, 2]) (ofVec [1, 1, 2]) = .ok true ∧
    isForward (ofVec [1, 0, 2]) (ofVec [2, 1, 2]) = .ok false ∧
    isBackward (ofVec [1, 1, 2]) (ofVec [1, 0, 2]) = .ok true ∧
    isForward (ofVec [2, 0]) (ofVec [0, 3]) = .ok false ∧ Fwd [1, 0, 2] [1, 1, 2] := by decide

/-- **C05.** Going forward and back in the same dimension is the identity, and the sum changes by
one. -/
theorem C05_inverse {v : List Nat} {i : Nat} (hi : i < v.length) :
    dec (inc v i) i = v ∧ (inc v i).sum = v.sum + 1 :=
  ⟨dec_inc hi, Fwd.sum ⟨i, hi, rfl⟩⟩

end Neighborhood
end MParT
