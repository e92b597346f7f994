/-
C118: `histogram_reduce`, `gbbs/helpers/histogram.h:564-737`.
-/
import Verif.Hist.Histogram

namespace Gbbs.Hist

open Gbbs.Hash Gbbs.SeqHT Gbbs.CountSort

variable {V X O : Type}

/-! ### Model -/

/-- State of the loop over the buckets: the table, `out` and `out_offs`. -/
structure RSt (V O : Type) where
  tab : Tab Nat V
  out : Nat → O
  k : Nat → Nat

/-- `out` after the results `l` have been written from `off` on. -/
def putOut (out : Nat → O) (off : Nat) (l : List O) : Nat → O :=
  fun x => if off ≤ x then (l[x - off]?).getD (out x) else out x

/-- One iteration of the loop over the buckets, `histogram.h:670-704`; `reduce_f(S, a)` is
`S.insertF(a, red)`, as in `edge_map_reduce.h:305-307`. -/
def reduceStep (h64 : Nat → Nat) (emp : Nat) (ev : V) (key : X → Nat) (red : V → X → V)
    (f : Nat × V → Option O) (elems : Nat → List X) (off sz : Nat → Nat) (st : RSt V O) (i : Nat) :
    Option (RSt V O) :=
  if sz i = 0 then some ⟨st.tab, st.out, Atomics.set st.k i 0⟩
  else
    match insAllC ⟨sz i, h64, emp⟩ key (fun x v => red v x) (fun x v => red v x) (elems i)
        (view st.tab (off i), 0) with
    | none => none
    | some (S, _) =>
      let r := compactInto ⟨sz i, h64, emp⟩ ev f S
      some ⟨put st.tab (off i) (sz i) r.1, putOut st.out (off i) r.2,
        Atomics.set st.k i r.2.length⟩

/-- `histogram_reduce`, `histogram.h:592-737`, for the elements `In 0, ..., In (n - 1)`; `get_key[i]` is
`key (In i)`.  `B`, `C` and `out` are the contents of the uninitialised arrays. -/
def histReduce (h32 h64 : Nat → Nat) (emp : Nat) (ev : V) (key : X → Nat) (red : V → X → V)
    (f : Nat × V → Option O) (workers n sq : Nat) (In : Nat → X) (ords : Nat → List Nat) (B : Nat → X)
    (C : Nat → Nat) (out : Nat → O) (ht : HT Nat V) : Option (List O × HT Nat V) :=
  if n < 4096 ∨ workers = 1 then
    histSeq h64 emp ev key (fun x v => red v x) (fun x v => red v x) f (fun _ => n)
      ((List.range n).map In) ht
  else
    let nb := numBuckets sq n
    let cs := countSort 15 (fun i => lightBucket h32 nb (key (In i))) In n nb sq (ords (numBlocks sq n)) B C
    let q := cs.2.2
    let bs := (n - 1) / q + 1
    let size := fun i => ((List.range q).map fun j => sliceLen cs.2.1 n nb bs i j).sum
    if (List.range nb).any (fun i => 2 ^ 30 ≤ size i) then none
    else
      let sz := fun i => hsz (size i)
      let off := hoff sz
      let ht := ht.resize emp ev (off nb)
      match (ords nb).foldlM
        (reduceStep h64 emp ev key red f (fun i => bucket cs.1 cs.2.1 n nb q i) off sz)
        ⟨ht.tab, out, fun _ => 0⟩ with
      | none => none
      | some st =>
        some ((List.range nb).flatMap (fun i => (List.range (st.k i)).map fun j => st.out (off i + j)),
          ⟨ht.size, st.tab⟩)

/-! ### Proof -/

theorem run_foldl (red : V → X → V) (v : V) (l : List X) :
    run (fun x v => red v x) (fun x v => red v x) v l = l.foldl red v := by
  cases l with
  | nil => rfl
  | cons x l => rfl

theorem putOut_in (out : Nat → O) (off : Nat) (l : List O) :
    (List.range l.length).map (fun j => putOut out off l (off + j)) = l := by
  apply List.ext_getElem
  · simp
  · intro i h1 h2
    simp only [List.getElem_map, List.getElem_range, putOut]
    rw [if_pos (Nat.le_add_right _ _), Nat.add_sub_cancel_left]
    simp [h2]

theorem putOut_out (out : Nat → O) (off : Nat) (l : List O) (x : Nat) (h : x < off ∨ off + l.length ≤ x) :
    putOut out off l x = out x := by
  unfold putOut
  by_cases hx : off ≤ x
  · rw [if_pos hx, List.getElem?_eq_none (by omega)]; rfl
  · rw [if_neg hx]

/-- C118.  `histogram_reduce` returns `f (k, v)` (when it has a value) for every key that occurs, where
`v` is obtained by combining the elements with this key one after the other, in their original order,
starting with the value of an empty slot: each once, and nothing else; it leaves the table empty.  The
elements must not carry the reserved key, the table must start empty, there must be less than 2^30
elements, and with one worker not more distinct keys than slots. -/
theorem histReduce_partial (h32 h64 : Nat → Nat) (emp : Nat) (ev : V) (key : X → Nat) (red : V → X → V)
    (f : Nat × V → Option O) (workers : Nat) {n : Nat} (sq : Nat) (In : Nat → X) (hn : n < 2 ^ 30)
    (hw : workers = 1 → ((List.range n).map fun i => key (In i)).dedup.length ≤ seqM n)
    (hemp : ∀ i, i < n → key (In i) ≠ emp)
    (ords : Nat → List Nat) (hords : ∀ m, (ords m).Perm (List.range m)) (B : Nat → X) (C : Nat → Nat)
    (out : Nat → O) (ht : HT Nat V) (hT : Clean emp (fun v => v = ev) ht.size ht.tab) :
    ∃ res ht', histReduce h32 h64 emp ev key red f workers n sq In ords B C out ht = some (res, ht') ∧
      res.Perm ((tally key emp (fun l => l.foldl red ev) ((List.range n).map In)).filterMap f) ∧
      Clean emp (fun v => v = ev) ht'.size ht'.tab := by
  have hrun : (run (fun x v => red v x) (fun x v => red v x) ev : List X → V) =
      fun l => l.foldl red ev := by
    funext l; exact run_foldl red ev l
  have hxemp : ∀ x ∈ (List.range n).map In, key x ≠ emp := by
    intro x hx
    obtain ⟨i, hi, rfl⟩ := List.mem_map.1 hx
    exact hemp i (List.mem_range.1 hi)
  unfold histReduce
  by_cases h1 : n < 4096 ∨ workers = 1
  · rw [if_pos h1]
    have hlen : ((List.range n).map In).length = n := by simp
    have hd : (((List.range n).map In).map key).dedup.length ≤ seqM ((List.range n).map In).length := by
      rw [hlen, List.map_map]
      rcases h1 with h1 | h1
      · refine Nat.le_trans (dedup_length_le _) ?_
        simp only [List.length_map, List.length_range]
        exact le_seqM (by omega)
      · exact hw h1
    obtain ⟨res, ht', e1, e2, e3⟩ := histSeq_spec h64 emp ev key (fun x v => red v x) (fun x v => red v x)
      f (fun _ => n) (fun v => v = ev) rfl ((List.range n).map In) (by rw [hlen]; omega) hd
      (fun c l _ h => by rw [hlen] at h; exact h) (fun x _ v hv => by rw [hv])
      (fun x hx hk => absurd hk (hxemp x hx)) ht hT
    rw [hrun] at e2
    exact ⟨res, ht', e1, e2, e3⟩
  · rw [if_neg h1]
    dsimp only
    obtain ⟨b1, b2⟩ := numBuckets_pos sq n
    generalize hnb : numBuckets sq n = nb at *
    obtain ⟨hq, hbuck⟩ := countSort_spec (w := 15) (sq := sq)
      (key := fun i => lightBucket h32 nb (key (In i))) In (show nb ≤ 2 ^ 15 by omega)
      (fun x _ => lightBucket_lt h32 b1 _) (ords (numBlocks sq n)) (hords _) B C
    generalize countSort 15 (fun i => lightBucket h32 nb (key (In i))) In n nb sq
      (ords (numBlocks sq n)) B C = cs at *
    obtain ⟨E, counts, q⟩ := cs
    dsimp only at hq hbuck ⊢
    set xs := (List.range n).map In with hxs
    have hel : ∀ i, i < nb → bucket E counts n nb q i =
        xs.filter fun x => lightBucket h32 nb (key x) = i := by
      intro i hi
      rw [hbuck i hi, hxs, List.filter_map]
      rfl
    have hsize : ∀ i, ((List.range q).map fun j => sliceLen counts n nb ((n - 1) / q + 1) i j).sum =
        (bucket E counts n nb q i).length := fun i => (bucket_length E counts n nb q i).symm
    simp only [hsize]
    have hlen : ∀ i, i < nb → (bucket E counts n nb q i).length ≤ n := by
      intro i hi
      rw [hel i hi]
      refine Nat.le_trans (List.length_filter_le _ _) ?_
      simp [hxs]
    have hany : (List.range nb).any (fun i => decide (2 ^ 30 ≤ (bucket E counts n nb q i).length)) =
        false := by
      rw [List.any_eq_false]
      intro i hi
      have := hlen i (List.mem_range.1 hi)
      simp only [decide_eq_true_eq]
      omega
    rw [hany]
    simp only [Bool.false_eq_true, if_false]
    set sz := fun i => hsz (bucket E counts n nb q i).length with hszd
    have hres := resize_size emp ev ht (hoff sz nb)
    have hcl := resize_clean (ok := fun v => v = ev) (ev := ev) rfl (hoff sz nb) hT
    generalize ht.resize emp ev (hoff sz nb) = ht at *
    let CleanAt : Nat → RSt V O → Prop := fun i st => ∀ s, s < sz i →
      st.tab.key (hoff sz i + s) = emp ∧ st.tab.val (hoff sz i + s) = ev
    let Post : Nat → RSt V O → Prop := fun i st => CleanAt i st ∧ st.k i ≤ sz i ∧
      ((List.range (st.k i)).map fun j => st.out (hoff sz i + j)).Perm
        ((tally key emp (fun l => l.foldl red ev)
          (xs.filter fun x => lightBucket h32 nb (key x) = i)).filterMap f)
    have hmem : ∀ i, i ∈ ords nb ↔ i < nb := fun i => by
      rw [(hords nb).mem_iff, List.mem_range]
    obtain ⟨st, hst, hpost⟩ := foldlM_disjoint
      (reduceStep h64 emp ev key red f (fun i => bucket E counts n nb q i) (hoff sz) sz) CleanAt Post
      (ords nb) ((hords _).nodup_iff.2 List.nodup_range)
      (by
        intro st i hi hpre
        rw [hmem] at hi
        unfold reduceStep
        dsimp only
        have hframe : ∀ (T : Tab Nat V) (out : Nat → O) (k : Nat),
            (∀ x, (x < hoff sz i ∨ hoff sz i + sz i ≤ x) →
              T.key x = st.tab.key x ∧ T.val x = st.tab.val x ∧ out x = st.out x) →
            ∀ j, j ∈ ords nb → j ≠ i →
              (CleanAt j st → CleanAt j ⟨T, out, Atomics.set st.k i k⟩) ∧
              (Post j st → Post j ⟨T, out, Atomics.set st.k i k⟩) := by
          intro T out k hTT j _ hji
          have hd := hoff_disjoint sz hji
          have hc : CleanAt j st → CleanAt j ⟨T, out, Atomics.set st.k i k⟩ := by
            intro hp s hs
            show T.key _ = emp ∧ T.val _ = ev
            obtain ⟨t1, t2, _⟩ := hTT (hoff sz j + s) (by omega)
            rw [t1, t2]; exact hp s hs
          refine ⟨hc, fun hp => ⟨hc hp.1, ?_⟩⟩
          obtain ⟨_, p1, p2⟩ := hp
          have hk : Atomics.set st.k i k j = st.k j := by simp only [Atomics.set, hji, if_false]
          dsimp only
          rw [hk]
          refine ⟨p1, ?_⟩
          have : ((List.range (st.k j)).map fun l => out (hoff sz j + l)) =
              (List.range (st.k j)).map fun l => st.out (hoff sz j + l) := by
            apply List.map_congr_left
            intro s hs
            rw [List.mem_range] at hs
            exact (hTT (hoff sz j + s) (by omega)).2.2
          rw [this]; exact p2
        by_cases hz : sz i = 0
        · rw [if_pos hz]
          refine ⟨_, rfl, ⟨hpre, ?_⟩, hframe st.tab st.out 0 (fun _ _ => ⟨rfl, rfl, rfl⟩)⟩
          have hnil : xs.filter (fun x => lightBucket h32 nb (key x) = i) = [] := by
            rw [← hel i hi, ← List.length_eq_zero_iff]
            by_contra h
            have := hsz_gt h
            change _ < sz i at this
            omega
          rw [hnil]
          have hk : Atomics.set st.k i 0 i = 0 := by simp [Atomics.set]
          dsimp only
          rw [hk]
          exact ⟨Nat.zero_le _, List.Perm.refl _⟩
        · rw [if_neg hz]
          have hne : (bucket E counts n nb q i).length ≠ 0 := by
            intro h; apply hz
            show hsz _ = 0
            rw [h]; rfl
          have hroom : ((bucket E counts n nb q i).map key).dedup.length ≤ sz i := by
            refine Nat.le_trans (dedup_length_le _) ?_
            rw [List.length_map]
            exact Nat.le_of_lt (hsz_gt hne)
          have hbe : ∀ x ∈ bucket E counts n nb q i, key x ≠ emp := by
            intro x hx
            rw [hel i hi, List.mem_filter] at hx
            exact hxemp x hx.1
          obtain ⟨S, c, h1, h2, h3, _, h5⟩ := region_spec (h64 := h64) (emp := emp)
            (Nat.pos_of_ne_zero hz) key (fun x v => red v x) (fun x v => red v x) ev (fun v => v = ev)
            (bucket E counts n nb q i) hroom
            (fun _ _ v hv => by rw [hv]) (fun x hx hk => absurd hk (hbe x hx)) (view st.tab (hoff sz i))
            (fun s hs => hpre s hs)
          rw [h1]
          dsimp only
          obtain ⟨c1, c2, c3⟩ := compactInto_spec ⟨sz i, h64, emp⟩ ev f S
          have c4 := compactInto_empty ⟨sz i, h64, emp⟩ ev f S
          generalize compactInto ⟨sz i, h64, emp⟩ ev f S = r at *
          have hrl : r.2.length ≤ sz i := by
            rw [c1]; exact Nat.le_trans (List.length_filterMap_le _ _) h5
          refine ⟨_, rfl, ⟨fun s hs => ?_, ?_⟩, hframe _ _ _ (fun x hx => ?_)⟩
          · obtain ⟨e1, e2⟩ := put_in st.tab r.1 (hoff sz i) (sz i) s hs
            dsimp only
            rw [e1, e2]
            refine ⟨c2 s hs, ?_⟩
            by_cases hse : S.key s = emp
            · rw [c4 s hse]; exact h3 s hs hse
            · exact c3 s hs hse
          · have hk : Atomics.set st.k i r.2.length i = r.2.length := by simp [Atomics.set]
            dsimp only
            rw [hk]
            refine ⟨hrl, ?_⟩
            rw [putOut_in, c1, ← hel i hi]
            refine (h2.filterMap f).trans ?_
            rw [hrun]
          · obtain ⟨e1, e2⟩ := put_out st.tab r.1 (hoff sz i) (sz i) x hx
            refine ⟨e1, e2, putOut_out _ _ _ _ (by omega)⟩)
      ⟨ht.tab, out, fun _ => 0⟩
      (by
        intro i hi s hs
        rw [hmem] at hi
        have h1 := hoff_mono sz (show i + 1 ≤ nb from hi)
        simp only [hoff] at h1
        exact hcl _ (by omega))
    rw [hst]
    refine ⟨_, _, rfl, ?_, ?_⟩
    · have hsplit := (tally_split key emp (fun l => l.foldl red ev) xs (lightBucket h32 nb) nb (by
        intro x _
        exact lightBucket_lt h32 b1 _)).filterMap f
      refine List.Perm.trans ?_ hsplit.symm
      rw [List.filterMap_flatMap]
      refine List.Perm.flatMap_left _ fun i hi => ?_
      exact (hpost i ((hmem i).2 (List.mem_range.1 hi))).2.2
    · intro x hx
      dsimp only at hx ⊢
      by_cases hxo : x < hoff sz nb
      · obtain ⟨i, hi, s, hs, rfl⟩ := hoff_find sz hxo
        exact (hpost i ((hmem i).2 hi)).1 s hs
      · refine foldlM_inv _ (fun st => st.tab.key x = emp ∧ st.tab.val x = ev) _ ?_ _ _ hst (hcl x hx)
        intro st i st' hi hs hQ
        rw [hmem] at hi
        unfold reduceStep at hs
        dsimp only at hs
        split at hs
        · cases hs; exact hQ
        · split at hs
          · cases hs
          · cases hs
            have h1 := hoff_mono sz (show i + 1 ≤ nb from hi)
            simp only [hoff] at h1
            obtain ⟨e1, e2⟩ := put_out st.tab
              (compactInto ⟨sz i, h64, emp⟩ ev f (by assumption)).1 (hoff sz i) (sz i) x (Or.inr (by omega))
            dsimp only
            rw [e1, e2]
            exact hQ

/-- C118 is false with one worker, for the same reason as C117. -/
theorem histReduce_refuted (h32 h64 : Nat → Nat) (red : V → Nat × V → V) (f : Nat × V → Option O) (sq : Nat)
    (ev : V) (ords : Nat → List Nat) (B : Nat → Nat × V) (C : Nat → Nat) (out : Nat → O) (ht : HT Nat V) :
    histReduce h32 h64 (2 ^ 32 - 1) ev Prod.fst red f 1 (2 ^ 24 + 1) sq (fun i => (i, ev)) ords B C out ht =
      none := by
  have gen : ∀ n, seqM n < n → n < 2 ^ 32 - 1 →
      histReduce h32 h64 (2 ^ 32 - 1) ev Prod.fst red f 1 n sq (fun i => (i, ev)) ords B C out ht = none := by
    intro n hfull hn
    generalize 2 ^ 32 - 1 = emp at *
    unfold histReduce
    rw [if_pos (Or.inr rfl)]
    unfold histSeq
    have hlen : ((List.range n).map fun i => (i, ev)).length = n := by simp
    rw [hlen]
    split
    · rfl
    · dsimp only
      split
      · rfl
      · rw [insAllC_full (P := ⟨seqM n, h64, emp⟩) Prod.fst _ _ ((List.range n).map fun i => (i, ev))
          (List.range n) List.nodup_range (by simpa using hfull)
          (fun k hk => ⟨by have := List.mem_range.1 hk; show k ≠ emp; omega, (k, ev),
            List.mem_map.2 ⟨k, hk, rfl⟩, rfl⟩)]
  exact gen _ (by rw [seqM_bad]; omega) (by omega)

/-- Sums and an order-dependent reduction, with a filter in `apply_f`. -/
example : (histReduce id id 9 0 (Prod.fst : Nat × Nat → Nat) (fun v x => 10 * v + x.2)
      (fun p => if p.2 < 100 then some p else none) 4 5 3
      (fun i => [(3, 1), (7, 2), (3, 4), (11, 5), (7, 123)].getD i (0, 0)) List.range
      (fun _ => (0, 0)) (fun _ => 0) (fun _ => (0, 0)) ⟨16, ⟨fun _ => 9, fun _ => 0⟩⟩).map Prod.fst =
      some [(3, 14), (11, 5)] ∧
    Clean 9 (fun v => v = 0) 16 (⟨fun _ => 9, fun _ => 0⟩ : Tab Nat Nat) := by
  refine ⟨by decide +kernel, fun s _ => ⟨rfl, rfl⟩⟩

end Gbbs.Hist
