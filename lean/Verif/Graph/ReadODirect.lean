import Mathlib.Data.Nat.Basic
import Mathlib.Tactic.Ring
import Verif.Common

/-!
# Reading a whole file with O_DIRECT

Model of `read_o_direct` (gbbs/io.cc:81-146).

Simplifications.  The file can be opened and does not change while it is read; a call
`read(fd, buf, len)` on a regular file returns `len` bytes, or all bytes up to the end of the
file when fewer are left (no short reads, no errors).  The size of a page (`getpagesize()`) and the
size of a chunk (`1024 * 1024 * 1024`) are parameters.  A byte of the buffer that has not been
written is `none`.
-/

namespace Gbbs.IODirect

variable {β : Type}

/-- The locals of `read_o_direct` (gbbs/io.cc:103-112), the buffer, and the requests passed to
`read` so far as pairs of offset and length. -/
structure St (β : Type) where
  sz : Nat
  rs : Nat
  buf : Nat → Option β
  log : List (Nat × Nat)

/-- `read(fd, bytes + sz, len); sz += ...` (gbbs/io.cc:123, 139): the position in the file is
`sz`, because it started at 0 and every read advances both. -/
def rd (file : List β) (len : Nat) (s : St β) : St β :=
  let got := (file.drop s.sz).take len
  { s with
    sz := s.sz + got.length
    buf := fun i => if s.sz ≤ i ∧ i < s.sz + got.length then got[i - s.sz]? else s.buf i
    log := s.log ++ [(s.sz, len)] }

/-- The adjustment of the size of the next read (gbbs/io.cc:113-119 and 126-132).  The division
of the two `size_t` is an integer division, so `std::ceil` does nothing. -/
def adjust (n pg : Nat) (s : St β) : St β :=
  if s.sz + s.rs > n then { s with rs := max ((n - s.sz) / pg * pg) pg } else s

/-- The loop (gbbs/io.cc:121-133); `none` if the fuel does not suffice. -/
def loop (file : List β) (pg : Nat) : Nat → St β → Option (St β)
  | 0, _ => none
  | f + 1, s =>
    if s.sz + s.rs < file.length then loop file pg f (adjust file.length pg (rd file s.rs s))
    else some s

/-- The state in which the loop is entered (gbbs/io.cc:107-119). -/
def start (file : List β) (pg G : Nat) : St β :=
  adjust file.length pg { sz := 0, rs := G, buf := fun _ => none, log := [] }

/-- The last read (gbbs/io.cc:134-143). -/
def last (file : List β) (pg : Nat) (s : St β) : St β :=
  if s.sz < file.length then rd file pg s else s

/-- `read_o_direct` (gbbs/io.cc:81-146). -/
def readODirect (file : List β) (pg G : Nat) : Option (St β) :=
  (loop file pg (file.length + 1) (start file pg G)).map (last file pg)

/-- The first `sz` bytes of the buffer are those of the file, nothing else has been written. -/
def Pre (file : List β) (s : St β) : Prop :=
  s.sz ≤ file.length ∧ ∀ i, s.buf i = if i < s.sz then file[i]? else none

theorem rd_sz (file : List β) (len : Nat) (s : St β) :
    (rd file len s).sz = s.sz + min len (file.length - s.sz) := by
  simp [rd]

theorem rd_pre {file : List β} {len : Nat} {s : St β} (h : Pre file s) :
    Pre file (rd file len s) := by
  obtain ⟨h1, h2⟩ := h
  refine ⟨by rw [rd_sz]; omega, fun i => ?_⟩
  rw [rd_sz]
  simp only [rd, List.length_take, List.length_drop]
  by_cases hi : s.sz ≤ i ∧ i < s.sz + min len (file.length - s.sz)
  · rw [if_pos hi, if_pos hi.2, List.getElem?_take, if_pos (by omega), List.getElem?_drop]
    congr 1; omega
  · rw [if_neg hi, h2]
    by_cases h3 : i < s.sz
    · rw [if_pos h3, if_pos (by omega)]
    · rw [if_neg h3, if_neg (by omega)]

/-- What holds whenever the condition of the loop is tested. -/
structure Inv (file : List β) (pg G : Nat) (s : St β) : Prop where
  pre : Pre file s
  pos : pg ≤ s.rs
  dsz : pg ∣ s.sz
  drs : pg ∣ s.rs
  fit : s.sz + s.rs ≤ file.length ∨ s.rs = pg
  log : ∀ r ∈ s.log, pg ∣ r.1 ∧ pg ∣ r.2 ∧ r.1 + r.2 ≤ file.length
  whole : pg ∣ file.length → file ≠ [] →
    G ∣ s.sz ∧ (s.rs = G ∧ s.sz + G ≤ file.length ∨ s.sz + s.rs = file.length ∧ s.rs ≤ G)

theorem adjust_inv {file : List β} {pg G : Nat} {s : St β} (pre : Pre file s) (dsz : pg ∣ s.sz) (drs : pg ∣ s.rs) (pos : pg ≤ s.rs)
    (log : ∀ r ∈ s.log, pg ∣ r.1 ∧ pg ∣ r.2 ∧ r.1 + r.2 ≤ file.length)
    (w : pg ∣ file.length → file ≠ [] → s.rs = G ∧ G ∣ s.sz ∧ s.sz < file.length) :
    Inv file pg G (adjust file.length pg s) := by
  unfold adjust
  by_cases h : s.sz + s.rs > file.length
  · rw [if_pos h]
    have hle : (file.length - s.sz) / pg * pg ≤ file.length - s.sz := Nat.div_mul_le_self _ _
    have hsz := pre.1
    refine ⟨pre, Nat.le_max_right _ _, dsz, ?_, ?_, log, fun hd he => ?_⟩
    · show pg ∣ max _ _
      rcases Nat.le_total ((file.length - s.sz) / pg * pg) pg with h' | h'
      · rw [Nat.max_eq_right h']
      · rw [Nat.max_eq_left h']; exact Nat.dvd_mul_left _ _
    · show s.sz + max _ _ ≤ _ ∨ max _ _ = _
      omega
    · obtain ⟨w1, w2, w3⟩ := w hd he
      refine ⟨w2, Or.inr ?_⟩
      show s.sz + max _ _ = _ ∧ max _ _ ≤ _
      have hd' : pg ∣ file.length - s.sz := Nat.dvd_sub hd dsz
      have hle' := Nat.le_of_dvd (by omega) hd'
      rw [Nat.div_mul_cancel hd', Nat.max_eq_left hle']
      omega
  · rw [if_neg h]
    refine ⟨pre, pos, dsz, drs, Or.inl (by omega), log, fun hd he => ?_⟩
    obtain ⟨w1, w2, w3⟩ := w hd he
    exact ⟨w2, Or.inl ⟨w1, by omega⟩⟩

theorem start_inv (file : List β) {pg G : Nat} (hG : pg ∣ G) (hG0 : 0 < G) :
    Inv file pg G (start file pg G) := by
  refine adjust_inv ⟨Nat.zero_le _, fun i => by simp⟩ (Nat.dvd_zero _) hG
    (Nat.le_of_dvd hG0 hG) (by simp) (fun _ he => ⟨rfl, Nat.dvd_zero _, ?_⟩)
  exact List.length_pos_iff.2 he

theorem step_inv {file : List β} {pg G : Nat} {s : St β} (h : Inv file pg G s) (hc : s.sz + s.rs < file.length) :
    Inv file pg G (adjust file.length pg (rd file s.rs s)) := by
  have hsz : (rd file s.rs s).sz = s.sz + s.rs := by rw [rd_sz]; omega
  refine adjust_inv (rd_pre h.pre) (by rw [hsz]; exact Nat.dvd_add h.dsz h.drs)
    h.drs h.pos ?_ (fun hd he => ?_)
  · intro r hr
    simp only [rd, List.mem_append, List.mem_singleton] at hr
    rcases hr with hr | rfl
    · exact h.log r hr
    · exact ⟨h.dsz, h.drs, by simp only; omega⟩
  · obtain ⟨w1, w2⟩ := h.whole hd he
    have hrs : s.rs = G := by omega
    exact ⟨hrs, by rw [hsz, hrs]; exact Nat.dvd_add w1 (Nat.dvd_refl _), by omega⟩

theorem adjust_sz (n pg : Nat) (s : St β) : (adjust n pg s).sz = s.sz := by
  unfold adjust; split <;> rfl

theorem loop_inv {file : List β} {pg G : Nat} (hpg : 0 < pg) :
    ∀ (f : Nat) (s : St β), Inv file pg G s → file.length < s.sz + f →
      ∃ t, loop file pg f s = some t ∧ Inv file pg G t ∧ file.length ≤ t.sz + t.rs := by
  intro f
  induction f with
  | zero => intro s h hf; have := h.pre.1; omega
  | succ f ih =>
    intro s h hf
    unfold loop
    by_cases hc : s.sz + s.rs < file.length
    · rw [if_pos hc]
      refine ih _ (step_inv h hc) ?_
      rw [adjust_sz, rd_sz]
      have := h.pos
      omega
    · rw [if_neg hc]
      exact ⟨s, rfl, h, by omega⟩

/-- **C160 (the reads).**  The function returns; every request starts at a multiple of the size of
a page, asks for a multiple of it (as O_DIRECT requires), and stays inside of the
`fsize + 4096` bytes that were allocated, if a page has at most 4096 bytes. -/
theorem C160_requests (file : List β) {pg G : Nat} (hpg : 0 < pg) (hG : pg ∣ G) (hG0 : 0 < G)
    (h4 : pg ≤ 4096) :
    ∃ s, readODirect file pg G = some s ∧
      ∀ r ∈ s.log, pg ∣ r.1 ∧ pg ∣ r.2 ∧ r.1 + r.2 ≤ file.length + 4096 := by
  obtain ⟨t, ht, hi, -⟩ := loop_inv (file := file) (G := G) hpg (file.length + 1) _
    (start_inv file hG hG0) (by omega)
  refine ⟨last file pg t, by rw [readODirect, ht]; rfl, fun r hr => ?_⟩
  have hold : ∀ r ∈ t.log, pg ∣ r.1 ∧ pg ∣ r.2 ∧ r.1 + r.2 ≤ file.length + 4096 := fun r hr => by
    obtain ⟨a, b, c⟩ := hi.log r hr
    exact ⟨a, b, by omega⟩
  unfold last at hr
  split at hr
  · simp only [rd, List.mem_append, List.mem_singleton] at hr
    rcases hr with hr | rfl
    · exact hold r hr
    · exact ⟨hi.dsz, Nat.dvd_refl _, by simp only; omega⟩
  · exact hold r hr

/-- **C160 (exactly when the file is read).**  The first `fsize` bytes of the result are the bytes
of the file if and only if the file is empty, or its size is not a multiple of the size of a page,
or it is one page longer than a whole number of chunks. -/
theorem C160_exact_partial (file : List β) {pg G : Nat} (hpg : 0 < pg) (hG : pg ∣ G) (hG0 : 0 < G) :
    ∃ s, readODirect file pg G = some s ∧
      ((∀ i, i < file.length → s.buf i = file[i]?) ↔
        (file = [] ∨ ¬ pg ∣ file.length ∨ pg ≤ file.length ∧ G ∣ file.length - pg)) := by
  obtain ⟨t, ht, hi, hx⟩ := loop_inv (file := file) (G := G) hpg (file.length + 1) _
    (start_inv file hG hG0) (by omega)
  refine ⟨last file pg t, by rw [readODirect, ht]; rfl, ?_⟩
  have hpos := hi.pos
  have hl : Pre file (last file pg t) ∧
      (last file pg t).sz = t.sz + min pg (file.length - t.sz) := by
    unfold last
    by_cases h : t.sz < file.length
    · rw [if_pos h]; exact ⟨rd_pre hi.pre, rd_sz _ _ _⟩
    · rw [if_neg h]; exact ⟨hi.pre, by have := hi.pre.1; omega⟩
  have key : (∀ i, i < file.length → (last file pg t).buf i = file[i]?) ↔
      file.length ≤ t.sz + pg := by
    constructor
    · intro h
      by_contra hc
      have h1 := h (t.sz + pg) (by omega)
      rw [hl.1.2, if_neg (by rw [hl.2]; omega), List.getElem?_eq_getElem (by omega)] at h1
      exact absurd h1 (by simp)
    · intro h i hlt
      rw [hl.1.2, if_pos (by rw [hl.2]; omega)]
  rw [key]
  constructor
  · intro h
    by_cases he : file = []
    · exact Or.inl he
    by_cases hd : pg ∣ file.length
    · obtain ⟨w1, w2⟩ := hi.whole hd he
      have hpl := Nat.le_of_dvd (List.length_pos_iff.2 he) hd
      refine Or.inr (Or.inr ⟨hpl, ?_⟩)
      have : file.length - pg = t.sz := by omega
      rw [this]; exact w1
    · exact Or.inr (Or.inl hd)
  · rintro (rfl | h | ⟨h1, h2⟩)
    · simp
    · rcases hi.fit with hf | hf
      · exact absurd (by rw [show file.length = t.sz + t.rs by omega]
                         exact Nat.dvd_add hi.dsz hi.drs) h
      · omega
    · by_cases he : file = []
      · subst he; simp
      have hd : pg ∣ file.length := by
        have := Nat.dvd_add (Nat.dvd_trans hG h2) (Nat.dvd_refl pg)
        rwa [Nat.sub_add_cancel h1] at this
      obtain ⟨w1, w2⟩ := hi.whole hd he
      have hsum : t.sz + t.rs = file.length := by omega
      have hrG : t.rs ≤ G := by omega
      obtain ⟨a, ha⟩ := w1
      obtain ⟨b, hb⟩ := h2
      by_contra hc
      -- `G a + pg < n = G b + pg` and `n ≤ G a + G`, hence `a < b < a + 1`
      have h3 : G * a < G * b := by omega
      have h4 : a + 1 ≤ b := Nat.lt_of_mul_lt_mul_left h3
      have h5 : G * (a + 1) ≤ G * b := Nat.mul_le_mul_left _ h4
      rw [Nat.mul_add, Nat.mul_one] at h5
      omega

/-- **C160 (refuted).**  Of a file of two or more whole pages and at most one chunk only the first
page is read: all other bytes of the returned buffer are uninitialised. -/
theorem C160_refuted (file : List β) {pg G : Nat} (hpg : 0 < pg)
    (hd : pg ∣ file.length) (h2 : pg < file.length) (hle : file.length ≤ G) :
    ∃ s, readODirect file pg G = some s ∧ s.log = [(0, pg)] ∧
      ∀ i, pg ≤ i → s.buf i = none := by
  have hne : 0 < file.length := by omega
  have hs : (start file pg G).sz = 0 ∧ (start file pg G).rs = file.length ∧
      (start file pg G).log = [] ∧ (start file pg G).buf = fun _ => none := by
    unfold start adjust
    simp only [Nat.zero_add, Nat.sub_zero]
    by_cases h : G > file.length
    · rw [if_pos h]
      refine ⟨rfl, ?_, rfl, rfl⟩
      show max _ _ = _
      rw [Nat.div_mul_cancel hd]; omega
    · rw [if_neg h]
      exact ⟨rfl, by simp only; omega, rfl, rfl⟩
  obtain ⟨s1, s2, s3, s4⟩ := hs
  have hloop : loop file pg (file.length + 1) (start file pg G) = some (start file pg G) := by
    unfold loop
    rw [s1, s2, if_neg (by omega)]
  refine ⟨_, by rw [readODirect, hloop]; rfl, ?_, fun i hi => ?_⟩
  · simp [last, s1, hne, rd, s3]
  · unfold last
    rw [if_pos (by omega)]
    simp only [rd, s1, s4]
    rw [if_neg]
    simp
    omega

/-- A file of 11 bytes with pages of 4 and chunks of 8 bytes is read in three steps. -/
example : (readODirect [10, 11, 12, 13, 14, 15, 16, 17, 18, 19, 20] 4 8).map
    (fun s => (s.log, (List.range 12).map s.buf)) =
    some ([(0, 8), (8, 4)], [some 10, some 11, some 12, some 13, some 14, some 15, some 16,
      some 17, some 18, some 19, some 20, none]) := by decide +kernel

/-- Of a file of 8 bytes only the first page of 4 is read. -/
example : (readODirect [10, 11, 12, 13, 14, 15, 16, 17] 4 64).map
    (fun s => (s.log, (List.range 8).map s.buf)) =
    some ([(0, 4)], [some 10, some 11, some 12, some 13, none, none, none, none]) := by
  decide +kernel

/-- The sizes on common machines: of a file of 8192 bytes the second half is not read. -/
example (file : List Nat) (h : file.length = 8192) :
    ∃ s, readODirect file 4096 (1024 * 1024 * 1024) = some s ∧
      s.log = [(0, 4096)] ∧ ∀ i, 4096 ≤ i → s.buf i = none :=
  C160_refuted _ (by omega) ⟨2, by omega⟩ (by omega) (by omega)

/-- A file of 10000 bytes is read. -/
example (file : List Nat) (h : file.length = 10000) :
    ∃ s, readODirect file 4096 (1024 * 1024 * 1024) = some s ∧
      ∀ i, i < 10000 → s.buf i = file[i]? := by
  obtain ⟨s, h1, h2⟩ := C160_exact_partial file (pg := 4096)
    (G := 1024 * 1024 * 1024) (by omega) ⟨262144, by omega⟩ (by omega)
  rw [h] at h2
  exact ⟨s, h1, h2.2 (Or.inr (Or.inl (by omega)))⟩

end Gbbs.IODirect
