import Verif.Encoding.PdLemmas

/-! # Bounds on the size of blocked encodings -/

namespace Gbbs.Blk

open Gbbs Byte EncSpec

variable {W : Type} {c : WCodec W} {ok : W → Prop}

theorem encEdge_len5 {d : Nat} (h : d < uintEMod) : (encEdge d).length ≤ 5 :=
  encEdge_length_le (by simp only [uintEMod] at h; omega)

theorem encSigned_len5 {x : Int} (h : x.natAbs < uintEMod) : (encSigned x).length ≤ 5 := by
  rw [encSigned_length]
  have : (encEdge (x.natAbs / 64)).length ≤ 4 :=
    encEdge_length_le (by simp only [uintEMod] at h; omega)
  omega

theorem encRest_size (L : Lawful c ok) (hw : ∀ w, ok w → (L.enc w).length ≤ 5) (prev : Nat)
    (l : List (Nat × W)) (h : Chain ok prev l) : (encRest L prev l).length ≤ 10 * l.length := by
  induction l generalizing prev with
  | nil => simp [encRest]
  | cons e r ih =>
    obtain ⟨n, w⟩ := e
    obtain ⟨h1, h2, h3, h4⟩ := h
    have := ih n h4
    have := hw w h3
    have := encEdge_len5 (d := n - prev) (by omega)
    simp only [encRest, List.length_append, List.length_cons]
    omega

theorem encBlk_size (D : FirstEnc) (L : Lawful c ok) (hw : ∀ w, ok w → (L.enc w).length ≤ 5)
    (src : Nat) (hsrc : src < uintEMod) (l : List (Nat × W)) (hv : ValidList l)
    (hok : ∀ e ∈ l, ok e.2) : (encBlk D L src l).length ≤ 10 * l.length := by
  cases l with
  | nil => simp [encBlk]
  | cons e r =>
    obtain ⟨n, w⟩ := e
    have hc : Chain ok n r := chain_of_valid hv (fun e he => hok e (List.mem_cons_of_mem _ he))
    have := encRest_size L hw n r hc
    have := hw w (hok (n, w) (by simp))
    have := encSigned_len5 (D.lt src n hsrc (hv.bounded (n, w) (by simp)))
    simp only [encBlk, List.length_append, List.length_cons]
    omega

theorem blocksLen_le (D : FirstEnc) (L : Lawful c ok) (hw : ∀ w, ok w → (L.enc w).length ≤ 5)
    (src extra : Nat) (hsrc : src < uintEMod) (all : List (Nat × W)) (hv : ValidList all)
    (hok : ∀ e ∈ all, ok e.2) (k i : Nat) :
    PD.blocksLen D L src extra all k i ≤ extra * k + 10 * (all.length - i * 1000) := by
  induction k generalizing i with
  | zero => simp [PD.blocksLen]
  | succ k ih =>
    have hs := block_sublist all i
    have h1 := encBlk_size D L hw src hsrc (block all i) (ValidList.sublist hs hv)
      (fun e he => hok e (hs.subset he))
    have h2 := ih (i + 1)
    rw [block_length] at h1
    have h3 : extra * (k + 1) = extra * k + extra := Nat.mul_succ ..
    simp only [PD.blocksLen]
    omega

theorem emptyLawful_len (w : Unit) : (emptyLawful.enc w).length ≤ 5 := by
  simp [emptyLawful]

theorem intLawful_len (w : Int) (h : Int32NotMin w) : (intLawful.enc w).length ≤ 5 := by
  refine encSigned_len5 ?_
  obtain ⟨h1, h2⟩ := h
  simp only [uintEMod]; omega

end Gbbs.Blk
