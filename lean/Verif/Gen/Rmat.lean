import Verif.Common

/-!
# The RMAT generator (C135): `utils/generators/rmat.h`, `utils/generators/RMAT.cc`

Simplifications: `parlay::hash64` and `hashDouble` are arbitrary functions (parlay is not part of the
repository), and the comparisons of `hashDouble(x)` with `a`, `a + b`, `a + b + c` are three arbitrary
predicates on `x`.
-/

namespace Gbbs.Rmat

/-- `2^32`, the modulus of `uintE`. -/
def M32 : Nat := 4294967296

/-- `2^64`, the modulus of `size_t`. -/
def M64 : Nat := 18446744073709551616

/-- The comparisons `r < a`, `r < ab`, `r < abc` for `r = hashDouble(x)`, `rmat.h:62-69`. -/
structure Cmp where
  a : Nat → Bool
  ab : Nat → Bool
  abc : Nat → Bool

/-- `rMatRec(nn, randStart, randStride)`, `rmat.h:55-72`, in `uintE` arithmetic.  For `nn = 0` the
recursion does not end (`none`). -/
def rMatRec (c : Cmp) (nn start stride : Nat) : Option (Nat × Nat) :=
  if nn = 0 then none
  else if nn = 1 then some (0, 0)
  else
    match rMatRec c (nn / 2) ((start + stride) % M32) stride with
    | none => none
    | some x =>
      if c.a start then some x
      else if c.ab start then some (x.1, (x.2 + nn / 2) % M32)
      else if c.abc start then some ((x.1 + nn / 2) % M32, x.2)
      else some ((x.1 + nn / 2) % M32, (x.2 + nn / 2) % M32)
termination_by nn
decreasing_by omega

/-- `operator()(i)`, `rmat.h:74-78`, with `h = hash64(seed)`; `hash` is `parlay::hash64`. -/
def edge (c : Cmp) (hash : Nat → Nat) (n h i : Nat) : Option (Nat × Nat) :=
  let start := hash ((2 * i) % M32 * h % M64) % M32
  let stride := hash ((2 * i + 1) % M32 * h % M64) % M32
  rMatRec c n start stride

/-- `parlay::log2_up(n)` for `n : uintE`: the number of halvings of `n - 1` (which wraps for 0). -/
def log2Up (n : Nat) : Nat :=
  let b := (n + (M32 - 1)) % M32
  if b = 0 then 0 else Nat.log2 b + 1

/-- `generate_updates(n, m, seed, a, b, c)`, `rmat.h:81-92`: entry `i` of the sequence of `m` edges, for
`i < m`.  The argument of `g` is a `uintE`.  `1 << 32` is undefined. -/
def generateUpdates (c : Cmp) (hash : Nat → Nat) (n seed i : Nat) : Option (Nat × Nat) :=
  if log2Up n ≥ 32 then none
  else edge c hash (2 ^ log2Up n) (hash seed) (i % M32)

/-! ## Proofs -/

theorem log2Up_spec {n : Nat} (h0 : 0 < n) (h : n ≤ 2147483648) :
    n ≤ 2 ^ log2Up n ∧ log2Up n < 32 ∧ 2 ^ log2Up n < 2 * n := by
  have hb : (n + (M32 - 1)) % M32 = n - 1 := by simp only [M32]; omega
  simp only [log2Up, hb]
  by_cases h1 : n - 1 = 0
  · rw [if_pos h1]; simp; omega
  · rw [if_neg h1]
    have e1 : n - 1 < 2 ^ (Nat.log2 (n - 1) + 1) := Nat.lt_log2_self
    have e2 : 2 ^ Nat.log2 (n - 1) ≤ n - 1 := Nat.log2_self_le h1
    have e3 : Nat.log2 (n - 1) < 31 := (Nat.log2_lt h1).2 (by omega)
    rw [Nat.pow_succ] at *
    omega

theorem log2Up_pow {k : Nat} (h : k < 32) : log2Up (2 ^ k) = k := by
  have hp : 0 < 2 ^ k := Nat.pow_pos (by decide)
  have hle : 2 ^ k ≤ 2 ^ 31 := Nat.pow_le_pow_right (by decide) (by omega)
  obtain ⟨h1, h2, h3⟩ := log2Up_spec hp hle
  have h4 : k ≤ log2Up (2 ^ k) := (Nat.pow_le_pow_iff_right (by decide)).1 h1
  have h5 : log2Up (2 ^ k) < k + 1 := by
    apply (Nat.pow_lt_pow_iff_right (a := 2) (by decide)).1
    rw [Nat.pow_succ]; omega
  omega

/-- The random number used at the level of block size `2^(k+1)`, when the top level is `K`. -/
def level (start stride K k : Nat) : Nat := (start + (K - 1 - k) * stride) % M32

theorem testBit_add_pow {x K k : Nat} (hx : x < 2 ^ K) (hk : k < K + 1) :
    (x + 2 ^ K).testBit k = if k = K then true else x.testBit k := by
  rw [Nat.add_comm]
  by_cases e : k = K
  · rw [if_pos e, e, Nat.testBit_two_pow_add_eq, Nat.testBit_lt_two_pow hx]; rfl
  · rw [if_neg e, Nat.testBit_two_pow_add_gt (by omega)]

theorem rMatRec_spec (c : Cmp) (stride : Nat) (K : Nat) (hK : K < 32) :
    ∀ start, start < M32 → ∃ u v, rMatRec c (2 ^ K) start stride = some (u, v) ∧ u < 2 ^ K ∧ v < 2 ^ K ∧
      ∀ k, k < K →
        u.testBit k = (!c.a (level start stride K k) && !c.ab (level start stride K k)) ∧
        v.testBit k = (!c.a (level start stride K k) &&
          (c.ab (level start stride K k) || !c.abc (level start stride K k))) := by
  induction K with
  | zero => intro start _; exact ⟨0, 0, by simp [rMatRec], by simp, by simp, fun k hk => by omega⟩
  | succ K ih =>
    intro start hs
    have hp : 0 < 2 ^ K := Nat.pow_pos (by decide)
    have hpow : 2 ^ (K + 1) = 2 * 2 ^ K := by rw [Nat.pow_succ]; omega
    have hle : 2 ^ (K + 1) ≤ 2 ^ 31 := Nat.pow_le_pow_right (by decide) (by omega)
    obtain ⟨u, v, h1, h2, h3, h4⟩ := ih (by omega) ((start + stride) % M32) (Nat.mod_lt _ (by decide))
    have hlev : ∀ k, k < K → level ((start + stride) % M32) stride K k = level start stride (K + 1) k := by
      intro k hk
      simp only [level]
      rw [Nat.mod_add_mod, show K + 1 - 1 - k = (K - 1 - k) + 1 by omega, Nat.succ_mul]
      congr 1; omega
    have htop : level start stride (K + 1) K = start := by
      simp only [level, Nat.add_sub_cancel, Nat.sub_self, Nat.zero_mul, Nat.add_zero]
      exact Nat.mod_eq_of_lt hs
    have hu0 : u.testBit K = false := Nat.testBit_lt_two_pow h2
    have hv0 : v.testBit K = false := Nat.testBit_lt_two_pow h3
    have hu1 : (u + 2 ^ K) % M32 = u + 2 ^ K := Nat.mod_eq_of_lt (by simp only [M32]; omega)
    have hv1 : (v + 2 ^ K) % M32 = v + 2 ^ K := Nat.mod_eq_of_lt (by simp only [M32]; omega)
    have bits : ∀ (x : Nat) (b : Bool), x < 2 ^ K → ∀ k, k < K + 1 →
        (if b then x + 2 ^ K else x).testBit k = if k = K then b else x.testBit k := by
      intro x b hx k hk
      cases b with
      | true => simp only [if_true]; exact testBit_add_pow hx hk
      | false =>
        simp only [Bool.false_eq_true, if_false]
        by_cases e : k = K
        · rw [if_pos e, e]; exact Nat.testBit_lt_two_pow hx
        · rw [if_neg e]
    refine ⟨if (!c.a start && !c.ab start) then u + 2 ^ K else u,
      if (!c.a start && (c.ab start || !c.abc start)) then v + 2 ^ K else v, ?_, ?_, ?_, ?_⟩
    · rw [rMatRec, if_neg (by omega), if_neg (by omega), show 2 ^ (K + 1) / 2 = 2 ^ K by omega, h1]
      simp only [hu1, hv1]
      cases c.a start <;> cases c.ab start <;> cases c.abc start <;> rfl
    · split <;> omega
    · split <;> omega
    · intro k hk
      rw [bits u _ h2 k hk, bits v _ h3 k hk]
      by_cases e : k = K
      · subst e; simp only [if_true, htop]; exact ⟨trivial, trivial⟩
      · rw [if_neg e, if_neg e, ← hlev k (by omega)]
        exact h4 k (by omega)

/-- C135 (partial): for `1 ≤ n ≤ 2^31` every edge is defined, its endpoints are below the power of two
`2^⌈log2 n⌉` (less than `2n`), and each bit of the endpoints is decided by its own pseudo-random number
`r`: bit `k` of the source is set iff `r ≥ a + b` and bit `k` of the target iff `a ≤ r < a + b` or
`r ≥ a + b + c`.  If `n` is a power of two the endpoints are below `n`.  Missing: for other `n` they need
not be (`C135_vertex_out_of_range`). -/
theorem C135_rmat_partial (c : Cmp) (hash : Nat → Nat) (n seed i : Nat) (h0 : 0 < n) (hn : n ≤ 2147483648)
    (hi : i < 4294967296)
    (hc1 : ∀ x, c.a x = true → c.ab x = true) (hc2 : ∀ x, c.ab x = true → c.abc x = true) :
    ∀ K, n ≤ 2 ^ K → 2 ^ K < 2 * n →
    let start := hash (2 * i % 2 ^ 32 * hash seed % 2 ^ 64) % 2 ^ 32
    let stride := hash ((2 * i + 1) % 2 ^ 32 * hash seed % 2 ^ 64) % 2 ^ 32
    let r := fun k => (start + (K - 1 - k) * stride) % 2 ^ 32
    ∃ u v, generateUpdates c hash n seed i = some (u, v) ∧
      u < 2 ^ K ∧ v < 2 ^ K ∧ ((∃ k, n = 2 ^ k) → u < n ∧ v < n) ∧
      ∀ k, k < K → (u.testBit k = true ↔ c.ab (r k) = false) ∧
        (v.testBit k = true ↔ (c.a (r k) = false ∧ c.ab (r k) = true) ∨ c.abc (r k) = false) := by
  intro K hK1 hK2 start stride r
  obtain ⟨g1, g2, g3⟩ := log2Up_spec h0 hn
  have hK : log2Up n = K := by
    have a1 : log2Up n < K + 1 := by
      apply (Nat.pow_lt_pow_iff_right (a := 2) (by decide)).1
      rw [Nat.pow_succ]; omega
    have a2 : K < log2Up n + 1 := by
      apply (Nat.pow_lt_pow_iff_right (a := 2) (by decide)).1
      rw [Nat.pow_succ]; omega
    omega
  obtain ⟨u, v, h1, h2, h3, h4⟩ := rMatRec_spec c stride K (hK ▸ g2) start (Nat.mod_lt _ (by decide))
  refine ⟨u, v, ?_, h2, h3, ?_, fun k hk => ?_⟩
  · rw [generateUpdates, if_neg (by omega), edge, show i % M32 = i from Nat.mod_eq_of_lt hi, hK]
    exact h1
  · rintro ⟨k, rfl⟩
    have : k < 32 := by
      apply (Nat.pow_lt_pow_iff_right (a := 2) (by decide)).1
      omega
    rw [log2Up_pow this] at hK
    subst hK
    exact ⟨h2, h3⟩
  · obtain ⟨b1, b2⟩ := h4 k hk
    rw [b1, b2]
    rw [show level start stride K k = r k from rfl]
    generalize r k = x
    have e1 := hc1 x
    have e2 := hc2 x
    revert e1 e2
    cases c.a x <;> cases c.ab x <;> cases c.abc x <;> simp

/-- Comparisons satisfying the hypotheses of `C135_rmat_partial` (`a`, `a+b`, `a+b+c` as thresholds). -/
example : let c : Cmp := ⟨fun x => x < 10, fun x => x < 20, fun x => x < 30⟩
    (∀ x, c.a x = true → c.ab x = true) ∧ (∀ x, c.ab x = true → c.abc x = true) := by
  simp only [decide_eq_true_eq]
  constructor <;> intro x <;> omega

/-- C135: with `n` not a power of two an endpoint can be `n` or more: whenever the pseudo-random numbers
of an edge all reach `a + b + c`, the edge is `(2^⌈log2 n⌉ - 1, 2^⌈log2 n⌉ - 1)`, so with `n = 3` vertex 3
occurs. -/
theorem C135_vertex_out_of_range (hash : Nat → Nat) (seed i : Nat) :
    generateUpdates ⟨fun _ => false, fun _ => false, fun _ => false⟩ hash 3 seed i = some (3, 3) := by
  have h2 : log2Up 3 = 2 := by decide +kernel
  rw [generateUpdates, h2, if_neg (by decide), edge]
  simp only [show (2 : Nat) ^ 2 = 4 from rfl]
  rw [rMatRec, if_neg (by decide), if_neg (by decide), show (4 : Nat) / 2 = 2 from rfl, rMatRec,
    if_neg (by decide), if_neg (by decide), show (2 : Nat) / 2 = 1 from rfl, rMatRec, if_neg (by decide),
    if_pos rfl]
  rfl

/-- C135: the edges repeat with period `2^31`: more than `2^31` updates give no further edges (the index
is doubled in 32-bit arithmetic). -/
theorem C135_period (c : Cmp) (hash : Nat → Nat) (n seed i : Nat) :
    generateUpdates c hash n seed (i + 2147483648) = generateUpdates c hash n seed i := by
  have e1 : 2 * ((i + 2147483648) % M32) % M32 = 2 * (i % M32) % M32 := by simp only [M32]; omega
  have e2 : (2 * ((i + 2147483648) % M32) + 1) % M32 = (2 * (i % M32) + 1) % M32 := by
    simp only [M32]; omega
  simp only [generateUpdates, edge, e1, e2]

/-- C135: `n = 0` and `n > 2^31` are undefined (a shift of an `int` by 32). -/
theorem C135_large_undefined (c : Cmp) (hash : Nat → Nat) (n seed i : Nat)
    (h : n = 0 ∨ (2147483648 < n ∧ n < 4294967296)) : generateUpdates c hash n seed i = none := by
  have hb : 2147483648 ≤ (n + (M32 - 1)) % M32 := by simp only [M32]; omega
  have : log2Up n ≥ 32 := by
    simp only [log2Up]
    rw [if_neg (by omega)]
    have : 31 ≤ Nat.log2 ((n + (M32 - 1)) % M32) := (Nat.le_log2 (by omega)).2 hb
    omega
  rw [generateUpdates, if_pos this]

/-- C135: the index is multiplied by the hash of the seed, so the first edge starts from `hash64(0)`
whatever the seed: with one level (`n = 2`) the first edge is the same for all seeds. -/
theorem C135_first_edge_ignores_seed (c : Cmp) (hash : Nat → Nat) (seed seed' : Nat) :
    generateUpdates c hash 2 seed 0 = generateUpdates c hash 2 seed' 0 := by
  have h1 : log2Up 2 = 1 := by decide +kernel
  have key : ∀ s, generateUpdates c hash 2 s 0 =
      if c.a (hash 0 % M32) then some (0, 0) else if c.ab (hash 0 % M32) then some (0, 1)
      else if c.abc (hash 0 % M32) then some (1, 0) else some (1, 1) := by
    intro s
    rw [generateUpdates, h1, if_neg (by decide), edge]
    simp only [show (2 : Nat) ^ 1 = 2 from rfl]
    rw [rMatRec, if_neg (by decide), if_neg (by decide), show (2 : Nat) / 2 = 1 from rfl, rMatRec,
      if_neg (by decide), if_pos rfl]
    simp [M32, M64]
    rfl
  rw [key, key]

end Gbbs.Rmat
