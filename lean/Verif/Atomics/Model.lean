/-!
# Atomic read-modify-write loops

Small-step model of the CAS loops of `/repo/gbbs/bridge.h`.  A configuration is the
shared cell plus the local state of every thread; a step lets one thread perform one
atomic access (a load or a CAS).  The set of threads is an arbitrary type `ι`, the
scheduler is arbitrary.  Memory is sequentially consistent (simplification).
-/

namespace Gbbs.Atomics

variable {ι α : Type}

/-- Replace the local state of one thread. -/
def set [DecidableEq ι] {β : Type} (f : ι → β) (i : ι) (x : β) : ι → β :=
  fun j => if j = i then x else f j

/-- Reflexive-transitive closure of a step relation. -/
inductive Steps {C : Type} (step : C → C → Prop) : C → C → Prop
  | refl (c) : Steps step c c
  | tail {a b c} : Steps step a b → step b c → Steps step a c

/-! ## write_min / write_max -/

/-- Program counter of a thread inside `write_min` (`gbbs/bridge.h:300-308`; the volatile
and `std::atomic` overloads `310-328` are the same loop): about to execute `c = *a`; about
to evaluate `less(b,c) && !(r = CAS(a,c,b))` with the loaded `c`; returned. -/
inductive WPc (α : Type)
  | load
  | test (c : α)
  | done (r : Bool)

/-- Shared cell and threads. -/
structure WConf (ι α : Type) where
  cell : α
  pc : ι → WPc α

/-- One atomic access by some thread of `write_min(a, b i, less)`,
`gbbs/bridge.h:300-308`.  When `less(b,c)` fails the loop exits with the value of `r` left
by the last CAS, which is `false`. -/
inductive WStep [DecidableEq ι] (less : α → α → Prop) (b : ι → α) :
    WConf ι α → WConf ι α → Prop
  | load (s : WConf ι α) (i : ι) (h : s.pc i = .load) :
      WStep less b s ⟨s.cell, set s.pc i (.test s.cell)⟩
  | exit (s : WConf ι α) (i : ι) (c : α) (h : s.pc i = .test c) (hl : ¬ less (b i) c) :
      WStep less b s ⟨s.cell, set s.pc i (.done false)⟩
  | casOk (s : WConf ι α) (i : ι) (c : α) (h : s.pc i = .test c) (hl : less (b i) c)
      (he : s.cell = c) : WStep less b s ⟨b i, set s.pc i (.done true)⟩
  | casFail (s : WConf ι α) (i : ι) (c : α) (h : s.pc i = .test c) (hl : less (b i) c)
      (he : s.cell ≠ c) : WStep less b s ⟨s.cell, set s.pc i .load⟩

/-- `write_max(a, b, less)` (`gbbs/bridge.h:330-358`) tests `less(c, b)`: it is the same
loop as `write_min` for the flipped comparison. -/
def flipRel (less : α → α → Prop) : α → α → Prop := fun x y => less y x

/-! ## fetch_and_add / write_add -/

/-- Program counter inside `fetch_and_add` (`gbbs/bridge.h:254-262`). -/
inductive APc (α : Type)
  | load
  | cas (old : α)
  | done (old : α)

structure AConf (ι α : Type) where
  cell : α
  pc : ι → APc α

/-- One atomic access of `fetch_and_add(a, b i)` (`gbbs/bridge.h:254-262`) or of
`write_add` (`280-298`, which discards the result). -/
inductive AStep [DecidableEq ι] [Add α] (b : ι → α) : AConf ι α → AConf ι α → Prop
  | load (s : AConf ι α) (i : ι) (h : s.pc i = .load) :
      AStep b s ⟨s.cell, set s.pc i (.cas s.cell)⟩
  | casOk (s : AConf ι α) (i : ι) (old : α) (h : s.pc i = .cas old) (he : s.cell = old) :
      AStep b s ⟨old + b i, set s.pc i (.done old)⟩
  | casFail (s : AConf ι α) (i : ι) (old : α) (h : s.pc i = .cas old) (he : s.cell ≠ old) :
      AStep b s ⟨s.cell, set s.pc i .load⟩

/-! ## fetch_and_add_threshold -/

/-- Program counter inside `fetch_and_add_threshold` (`gbbs/bridge.h:267-278`). -/
inductive TPc
  | load
  | test (old : Nat)
  | done (r : Option Nat)

structure TConf (ι : Type) where
  cell : Nat
  pc : ι → TPc

/-- One atomic access of `fetch_and_add_threshold(a, b i, maxV)`,
`gbbs/bridge.h:267-278`.  Simplification: naturals, i.e. no wrap-around of `oldV + b`. -/
inductive TStep [DecidableEq ι] (maxV : Nat) (b : ι → Nat) : TConf ι → TConf ι → Prop
  | load (s : TConf ι) (i : ι) (h : s.pc i = .load) :
      TStep maxV b s ⟨s.cell, set s.pc i (.test s.cell)⟩
  | exit (s : TConf ι) (i : ι) (old : Nat) (h : s.pc i = .test old) (hl : ¬ old ≤ maxV) :
      TStep maxV b s ⟨s.cell, set s.pc i (.done none)⟩
  | casOk (s : TConf ι) (i : ι) (old : Nat) (h : s.pc i = .test old) (hl : old ≤ maxV)
      (he : s.cell = old) : TStep maxV b s ⟨old + b i, set s.pc i (.done (some old))⟩
  | casFail (s : TConf ι) (i : ι) (old : Nat) (h : s.pc i = .test old) (hl : old ≤ maxV)
      (he : s.cell ≠ old) : TStep maxV b s ⟨s.cell, set s.pc i .load⟩

end Gbbs.Atomics
