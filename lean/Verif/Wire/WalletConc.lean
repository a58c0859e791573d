import Verif.Wire.Sign
/-!
# `wallet.Basic.GetAddress` called from several goroutines (C100)

`GetAddress` (wallet/basic.go:47-53) fills a cache without a lock.  The 20 byte comparison, store and load are not atomic:
they are done in machine words.  The model splits each of them into the same list of `chunks` (sets of byte positions,
which may overlap) and interleaves any number of goroutines; the list of chunks is a parameter.  Simplification:
sequentially consistent memory between the chunk accesses (Go promises less for racy programs).
-/
namespace Nimiq.Wire

/-- The contents of the field `address`. -/
abbrev Cell := Fin 20 → UInt8

/-- A machine word: the byte positions it covers. -/
abbrev Chunk := Fin 20 → Bool

/-- Take the bytes of chunk `c` from `src`. -/
def Chunk.move (c : Chunk) (src dst : Cell) : Cell := fun i => if c i then src i else dst i

/-- Where a goroutine is in `GetAddress`. -/
inductive GState where
  /-- basic.go:48: comparing `b.address` with `[20]byte{}`, these chunks are left -/
  | check (left : List Chunk)
  /-- basic.go:50: storing the derived address into `b.address` -/
  | write (left : List Chunk)
  /-- basic.go:52: loading the result from `b.address` -/
  | load (got : Cell) (left : List Chunk)
  /-- returned -/
  | done (result : Cell)

/-- basic.go:47-53: one step of one goroutine; `a` is `wire.PublicKeyToAddress(&pubKey)`. -/
def gstep (chunks : List Chunk) (a : Cell) : Cell → GState → Cell × GState
  | m, .check [] => (m, .write chunks)
  | m, .check (c :: left) =>
    if ∃ i, c i = true ∧ m i ≠ 0 then (m, .load (fun _ => 0) chunks) else (m, .check left)
  | m, .write [] => (m, .load (fun _ => 0) chunks)
  | m, .write (c :: left) => (c.move a m, .write left)
  | m, .load got [] => (m, .done got)
  | m, .load got (c :: left) => (m, .load (c.move m got) left)
  | m, .done r => (m, .done r)

/-- The wallet's cache and the goroutines, each in one call of `GetAddress`. -/
structure GSys where
  mem : Cell
  thread : Nat → GState

/-- Goroutine `t` makes a step. -/
def GSys.step (chunks : List Chunk) (a : Cell) (s : GSys) (t : Nat) : GSys :=
  let r := gstep chunks a s.mem (s.thread t)
  ⟨r.1, fun u => if u = t then r.2 else s.thread u⟩

/-- A schedule: which goroutine moves next. -/
def GSys.run (chunks : List Chunk) (a : Cell) (s : GSys) (sched : List Nat) : GSys := sched.foldl (GSys.step chunks a) s

/-- All goroutines are about to call `GetAddress` of a wallet whose cache holds `m`. -/
def GSys.start (chunks : List Chunk) (m : Cell) : GSys := ⟨m, fun _ => .check chunks⟩

/-- The cache of a new wallet. -/
def Cell.zero : Cell := fun _ => 0

/-- The positions covered by a list of chunks. -/
def covers (cs : List Chunk) (i : Fin 20) : Bool := cs.any fun c => c i

/-! ## Invariants -/

theorem run_append (chunks : List Chunk) (a : Cell) (s : GSys) (x y : List Nat) :
    s.run chunks a (x ++ y) = (s.run chunks a x).run chunks a y := by simp [GSys.run]

theorem run_inv {chunks : List Chunk} {a : Cell} {P : GSys → Prop} (hstep : ∀ s t, P s → P (s.step chunks a t)) :
    ∀ (sched : List Nat) (s : GSys), P s → P (s.run chunks a sched)
  | [], _, h => h
  | t :: sched, s, h => run_inv hstep sched _ (hstep s t h)

/-- C100, what always holds: every byte of every result is the byte of the wallet's address, or zero. -/
theorem C100_bytes_partial (chunks : List Chunk) (a m : Cell) (hm0 : ∀ i, m i = a i ∨ m i = 0) (sched : List Nat) (t : Nat)
    (r : Cell) (h : ((GSys.start chunks m).run chunks a sched).thread t = .done r) (i : Fin 20) : r i = a i ∨ r i = 0 := by
  let ok : Cell → Prop := fun m => ∀ i, m i = a i ∨ m i = 0
  let tok : GState → Prop := fun g => match g with
    | .load got _ => ok got
    | .done r => ok r
    | _ => True
  have hz : ok (fun _ => 0) := fun i => .inr rfl
  have hmv : ∀ (c : Chunk) x y, ok x → ok y → ok (c.move x y) := by
    intro c x y hx hy i
    simp only [Chunk.move]
    split
    · exact hx i
    · exact hy i
  have key := run_inv (chunks := chunks) (a := a) (P := fun s => ok s.mem ∧ ∀ t, tok (s.thread t)) (by
    intro s t ⟨hm, ht⟩
    have : ok (gstep chunks a s.mem (s.thread t)).1 ∧ tok (gstep chunks a s.mem (s.thread t)).2 := by
      have := ht t
      cases hg : s.thread t with
      | check left =>
        cases left with
        | nil => exact ⟨hm, trivial⟩
        | cons c left =>
          simp only [gstep]
          split
          · exact ⟨hm, hz⟩
          · exact ⟨hm, trivial⟩
      | write left =>
        cases left with
        | nil => exact ⟨hm, hz⟩
        | cons c left => exact ⟨hmv _ _ _ (fun i => .inl rfl) hm, trivial⟩
      | load got left =>
        rw [hg] at this
        cases left with
        | nil => exact ⟨hm, this⟩
        | cons c left => exact ⟨hm, hmv _ _ _ hm this⟩
      | done r => rw [hg] at this; exact ⟨hm, this⟩
    refine ⟨this.1, fun u => ?_⟩
    simp only [GSys.step]
    split
    · exact this.2
    · exact ht u) sched (GSys.start chunks m) ⟨hm0, fun _ => trivial⟩
  have := key.2 t
  rw [h] at this
  exact this i

/-! ## One goroutine alone -/

/-- `k` steps of one goroutine. -/
def giter (chunks : List Chunk) (a : Cell) : Nat → Cell × GState → Cell × GState
  | 0, x => x
  | k + 1, x => giter chunks a k (gstep chunks a x.1 x.2)

theorem giter_add (chunks : List Chunk) (a : Cell) : ∀ (k l : Nat) x,
    giter chunks a (k + l) x = giter chunks a l (giter chunks a k x)
  | 0, l, x => by rw [Nat.zero_add]; rfl
  | k + 1, l, x => by
    rw [show k + 1 + l = (k + l) + 1 by omega]
    exact giter_add chunks a k l _

theorem run_solo (chunks : List Chunk) (a : Cell) (t : Nat) : ∀ (k : Nat) (s : GSys),
    (s.run chunks a (List.replicate k t)).mem = (giter chunks a k (s.mem, s.thread t)).1 ∧
    (s.run chunks a (List.replicate k t)).thread t = (giter chunks a k (s.mem, s.thread t)).2 ∧
    ∀ u, u ≠ t → (s.run chunks a (List.replicate k t)).thread u = s.thread u
  | 0, s => ⟨rfl, rfl, fun _ _ => rfl⟩
  | k + 1, s => by
    have ih := run_solo chunks a t k (s.step chunks a t)
    have e : ((s.step chunks a t).mem, (s.step chunks a t).thread t) = gstep chunks a s.mem (s.thread t) := by
      simp [GSys.step]
    rw [e] at ih
    refine ⟨ih.1, ih.2.1, fun u hu => ?_⟩
    rw [← show (s.step chunks a t).thread u = s.thread u by simp [GSys.step, hu]]
    exact ih.2.2 u hu

/-- Take the bytes covered by `cs` from `src`. -/
def moveAll (cs : List Chunk) (src dst : Cell) : Cell := fun i => if covers cs i then src i else dst i

theorem covers_cons (c : Chunk) (cs : List Chunk) (i : Fin 20) : covers (c :: cs) i = (c i || covers cs i) := rfl
theorem covers_append (x y : List Chunk) (i : Fin 20) : covers (x ++ y) i = (covers x i || covers y i) := by
  simp [covers]
theorem moveAll_nil (src dst : Cell) : moveAll [] src dst = dst := by funext i; simp [moveAll, covers]

theorem moveAll_cons (c : Chunk) (cs : List Chunk) (src dst : Cell) :
    moveAll cs src (c.move src dst) = moveAll (c :: cs) src dst := by
  funext i
  simp only [moveAll, Chunk.move, covers_cons]
  by_cases h1 : c i = true <;> by_cases h2 : covers cs i <;> simp [h1, h2]

theorem solo_write (chunks : List Chunk) (a : Cell) (suf : List Chunk) : ∀ (pre : List Chunk) (m : Cell),
    giter chunks a pre.length (m, .write (pre ++ suf)) = (moveAll pre a m, .write suf)
  | [], m => by rw [moveAll_nil]; rfl
  | c :: pre, m => by
    rw [List.length_cons, giter, ← moveAll_cons]
    exact solo_write chunks a suf pre _

theorem solo_load (chunks : List Chunk) (a : Cell) (m : Cell) : ∀ (cs : List Chunk) (got : Cell),
    giter chunks a (cs.length + 1) (m, .load got cs) = (m, .done (moveAll cs m got))
  | [], got => by rw [moveAll_nil]; rfl
  | c :: cs, got => by
    rw [List.length_cons, giter, ← moveAll_cons]
    exact solo_load chunks a m cs _

theorem solo_check_zero (chunks : List Chunk) (a : Cell) : ∀ (cs : List Chunk),
    giter chunks a (cs.length + 1) (.zero, .check cs) = (.zero, .write chunks)
  | [] => rfl
  | c :: cs => by
    rw [List.length_cons, giter]
    simp only [gstep, Cell.zero, ne_eq, not_true_eq_false, and_false, exists_const, if_false]
    exact solo_check_zero chunks a cs

theorem solo_check_set (chunks : List Chunk) (a : Cell) (m : Cell) : ∀ (cs : List Chunk) (i : Fin 20), covers cs i → m i ≠ 0 →
    ∃ k, giter chunks a k (m, .check cs) = (m, .load (fun _ => 0) chunks)
  | [], i, hc, _ => by simp [covers] at hc
  | c :: cs, i, hc, hi => by
    by_cases h : ∃ i, c i = true ∧ m i ≠ 0
    · exact ⟨1, by simp only [giter, gstep, if_pos h]⟩
    · obtain ⟨k, hk⟩ := solo_check_set chunks a m cs i (by
        rw [covers_cons, Bool.or_eq_true] at hc
        exact hc.resolve_left fun h1 => h ⟨i, h1, hi⟩) hi
      exact ⟨k + 1, by simp only [giter, gstep, if_neg h]; exact hk⟩

theorem moveAll_full {cs : List Chunk} (h : ∀ i, covers cs i) (src dst : Cell) : moveAll cs src dst = src := by
  funext i; simp [moveAll, h i]

/-- C100, one goroutine at a time: a call that runs to its end without interference returns the address, and leaves it in
the cache, whether the cache was empty or filled. -/
theorem C100_sequential (chunks : List Chunk) (hc : ∀ i, covers chunks i) (a m : Cell) (hm : m = .zero ∨ m = a) (t : Nat) :
    ∃ k, ((GSys.start chunks m).run chunks a (List.replicate k t)).thread t = .done a ∧
      ((GSys.start chunks m).run chunks a (List.replicate k t)).mem = a := by
  have main : ∃ k, giter chunks a k (m, .check chunks) = (a, .done a) := by
    by_cases hz : m = .zero
    · subst hz
      refine ⟨(chunks.length + 1) + (chunks.length + (1 + (chunks.length + 1))), ?_⟩
      have hw := solo_write chunks a [] chunks .zero
      rw [List.append_nil] at hw
      rw [giter_add, solo_check_zero, giter_add, hw, giter_add]
      rw [moveAll_full hc]
      have e : giter chunks a 1 (a, .write []) = (a, .load (fun _ => 0) chunks) := rfl
      rw [e, solo_load, moveAll_full hc]
    · obtain rfl := hm.resolve_left hz
      obtain ⟨i, hi⟩ : ∃ i, m i ≠ 0 := Classical.byContradiction fun h =>
        hz (funext fun i => Classical.byContradiction fun hi => h ⟨i, hi⟩)
      obtain ⟨k, hk⟩ := solo_check_set chunks m m chunks i (hc i) hi
      refine ⟨k + (chunks.length + 1), ?_⟩
      rw [giter_add, hk, solo_load, moveAll_full hc]
  obtain ⟨k, hk⟩ := main
  obtain ⟨h1, h2, _⟩ := run_solo chunks a t k (GSys.start chunks m)
  have e : giter chunks a k ((GSys.start chunks m).mem, (GSys.start chunks m).thread t) = (a, .done a) := hk
  rw [e] at h1 h2
  exact ⟨k, h2, h1⟩

/-! ## Torn reads -/

/-- After some of the chunk stores, part of the address, but not all of it, is visible. -/
def Tears (chunks : List Chunk) (a : Cell) : Prop :=
  ∃ pre suf, chunks = pre ++ suf ∧ (∃ i, covers pre i ∧ a i ≠ 0) ∧ ∃ i, ¬ covers pre i ∧ a i ≠ 0

theorem tears_violates {chunks : List Chunk} (hc : ∀ i, covers chunks i) {a : Cell} (h : Tears chunks a) :
    ∃ sched r, ((GSys.start chunks .zero).run chunks a sched).thread 1 = .done r ∧ r ≠ a := by
  obtain ⟨pre, suf, hp, ⟨i, hi, hai⟩, j, hj, haj⟩ := h
  let m1 := moveAll pre a .zero
  have hm1 : m1 i ≠ 0 := by simp only [m1, moveAll, if_pos hi]; exact hai
  obtain ⟨k, hk⟩ := solo_check_set chunks a m1 chunks i (hc i) hm1
  have h0 : giter chunks a ((chunks.length + 1) + pre.length) (.zero, .check chunks) = (m1, .write suf) := by
    rw [giter_add, solo_check_zero]
    have := solo_write chunks a suf pre .zero
    rw [← hp] at this
    exact this
  have h1 : giter chunks a (k + (chunks.length + 1)) (m1, .check chunks) = (m1, .done m1) := by
    rw [giter_add, hk, solo_load, moveAll_full hc]
  let s0 := GSys.start chunks .zero
  let s1 := s0.run chunks a (List.replicate ((chunks.length + 1) + pre.length) 0)
  obtain ⟨a1, a2, a3⟩ := run_solo chunks a 0 ((chunks.length + 1) + pre.length) s0
  have e0 : (s0.mem, s0.thread 0) = (Cell.zero, GState.check chunks) := rfl
  rw [e0, h0] at a1
  obtain ⟨b1, b2, b3⟩ := run_solo chunks a 1 (k + (chunks.length + 1)) s1
  have e1 : (s1.mem, s1.thread 1) = (m1, GState.check chunks) := by
    rw [show s1.mem = m1 from a1, show s1.thread 1 = s0.thread 1 from a3 1 (by decide)]; rfl
  rw [e1, h1] at b2
  refine ⟨List.replicate ((chunks.length + 1) + pre.length) 0 ++ List.replicate (k + (chunks.length + 1)) 1, m1, ?_, ?_⟩
  · rw [run_append]; exact b2
  · intro e
    have := congrFun e j
    simp only [m1, moveAll, if_neg hj] at this
    exact haj this.symm

theorem no_tears {chunks : List Chunk} (hc : ∀ i, covers chunks i) {a m : Cell} (hm0 : m = .zero ∨ m = a)
    (h : ¬ Tears chunks a) (sched : List Nat) (t : Nat) (r : Cell)
    (hr : ((GSys.start chunks m).run chunks a sched).thread t = .done r) : r = a := by
  let tok : Cell → GState → Prop := fun m g => match g with
    | .check _ => True
    | .write left => ∃ pre, chunks = pre ++ left ∧ ∀ i, covers pre i → m i = a i
    | .load got left => m = a ∧ ∃ pre, chunks = pre ++ left ∧ got = moveAll pre a .zero
    | .done r => r = a
  have hmono : ∀ m m' g, (∀ i, m i = a i → m' i = a i) → tok m g → tok m' g := by
    intro m m' g hmm ht
    cases g with
    | check _ => trivial
    | write left =>
      obtain ⟨pre, h1, h2⟩ := ht
      exact ⟨pre, h1, fun i hi => hmm i (h2 i hi)⟩
    | load got left =>
      obtain ⟨h1, h2⟩ := ht
      exact ⟨funext fun i => hmm i (congrFun h1 i), h2⟩
    | done r => exact ht
  have hnil : moveAll [] a .zero = fun _ => 0 := by
    rw [moveAll_nil]; rfl
  have key := run_inv (chunks := chunks) (a := a) (P := fun s => (s.mem = .zero ∨ s.mem = a) ∧ ∀ t, tok s.mem (s.thread t)) (by
    intro s t ⟨hm, ht⟩
    have : ((gstep chunks a s.mem (s.thread t)).1 = .zero ∨ (gstep chunks a s.mem (s.thread t)).1 = a) ∧
        (∀ i, s.mem i = a i → (gstep chunks a s.mem (s.thread t)).1 i = a i) ∧
        tok (gstep chunks a s.mem (s.thread t)).1 (gstep chunks a s.mem (s.thread t)).2 := by
      have hti := ht t
      cases hg : s.thread t with
      | check left =>
        cases left with
        | nil => exact ⟨hm, fun i hi => hi, [], rfl, fun i hi => by simp [covers] at hi⟩
        | cons c left =>
          simp only [gstep]
          split
          · rename_i hex
            obtain ⟨i, _, hi⟩ := hex
            have hma : s.mem = a := hm.resolve_left fun e => hi (congrFun e i)
            exact ⟨hm, fun i hi => hi, hma, [], rfl, hnil.symm⟩
          · exact ⟨hm, fun i hi => hi, trivial⟩
      | write left =>
        rw [hg] at hti
        obtain ⟨pre, hp, hpre⟩ := hti
        cases left with
        | nil =>
          rw [List.append_nil] at hp
          subst hp
          exact ⟨hm, fun i hi => hi, funext fun i => hpre i (hc i), [], rfl, hnil.symm⟩
        | cons c left =>
          simp only [gstep]
          have hm' : ∀ i, s.mem i = a i → c.move a s.mem i = a i := by
            intro i hi; simp only [Chunk.move]; split
            · rfl
            · exact hi
          have hpre' : ∀ i, covers (pre ++ [c]) i → c.move a s.mem i = a i := by
            intro i hi
            rw [covers_append, Bool.or_eq_true] at hi
            rcases hi with hi | hi
            · exact hm' i (hpre i hi)
            · have : c i = true := by simpa [covers] using hi
              simp only [Chunk.move, this, if_true]
          refine ⟨?_, hm', pre ++ [c], by simp [hp], hpre'⟩
          rcases hm with hm | hm
          · by_cases hs : ∃ i, covers (pre ++ [c]) i ∧ a i ≠ 0
            · right
              funext i
              by_cases hi : covers (pre ++ [c]) i
              · exact hpre' i hi
              · have hai : a i = 0 := Classical.byContradiction fun hai =>
                  h ⟨pre ++ [c], left, by simp [hp], hs, i, hi, hai⟩
                exact hm' i (by rw [hm, hai]; rfl)
            · left
              funext i
              simp only [Chunk.move]
              split
              · rename_i hci
                exact Classical.byContradiction fun hai => hs ⟨i, by simp [covers, hci], hai⟩
              · rw [hm]
          · right
            exact funext fun i => hm' i (congrFun hm i)
      | load got left =>
        rw [hg] at hti
        obtain ⟨hma, pre, hp, hgot⟩ := hti
        cases left with
        | nil =>
          rw [List.append_nil] at hp
          subst hp
          rw [moveAll_full hc] at hgot
          exact ⟨hm, fun i hi => hi, hgot⟩
        | cons c left =>
          refine ⟨hm, fun i hi => hi, hma, pre ++ [c], by simp [hp], ?_⟩
          simp only [hgot, hma]
          funext i
          simp only [Chunk.move, moveAll, covers_append]
          by_cases h1 : c i = true
          · simp [h1, covers]
          · simp [h1, covers]
      | done r => rw [hg] at hti; exact ⟨hm, fun i hi => hi, hti⟩
    refine ⟨this.1, fun u => ?_⟩
    simp only [GSys.step]
    split
    · exact this.2.2
    · exact hmono _ _ _ this.2.1 (ht u)) sched (GSys.start chunks m) ⟨hm0, fun _ => trivial⟩
  have := key.2 t
  rw [hr] at this
  exact this

/-- C100 is false: some goroutine can be given a wrong address exactly when some of the stores, but not all, make a part of
the address visible. -/
theorem C100_violated_iff (chunks : List Chunk) (hc : ∀ i, covers chunks i) (a : Cell) :
    (∃ sched t r, ((GSys.start chunks .zero).run chunks a sched).thread t = .done r ∧ r ≠ a) ↔ Tears chunks a := by
  constructor
  · rintro ⟨sched, t, r, h, hne⟩
    exact Classical.byContradiction fun hn => hne (no_tears hc (.inl rfl) hn sched t r h)
  · intro h
    obtain ⟨sched, r, h1, h2⟩ := tears_violates hc h
    exact ⟨sched, 1, r, h1, h2⟩

/-- C100, the part that holds: once the cache is filled (by a call that returned before the goroutines start), every call on
every schedule returns the address, however the accesses are split. -/
theorem C100_initialised_partial (chunks : List Chunk) (hc : ∀ i, covers chunks i) (a : Cell) (sched : List Nat) (t : Nat)
    (r : Cell) (h : ((GSys.start chunks a).run chunks a sched).thread t = .done r) : r = a := by
  let tok : GState → Prop := fun g => match g with
    | .load got left => ∃ pre, chunks = pre ++ left ∧ got = moveAll pre a .zero
    | .done r => r = a
    | _ => True
  have hz : tok (.load (fun _ => 0) chunks) := ⟨[], rfl, by rw [moveAll_nil]; rfl⟩
  have key := run_inv (chunks := chunks) (a := a) (P := fun s => s.mem = a ∧ ∀ t, tok (s.thread t)) (by
    intro s t ⟨hm, ht⟩
    have : (gstep chunks a s.mem (s.thread t)).1 = a ∧ tok (gstep chunks a s.mem (s.thread t)).2 := by
      have hti := ht t
      cases hg : s.thread t with
      | check left =>
        cases left with
        | nil => exact ⟨hm, trivial⟩
        | cons c left =>
          simp only [gstep]
          split
          · exact ⟨hm, hz⟩
          · exact ⟨hm, trivial⟩
      | write left =>
        cases left with
        | nil => exact ⟨hm, hz⟩
        | cons c left =>
          refine ⟨?_, trivial⟩
          simp only [gstep, hm]
          funext i; simp [Chunk.move]
      | load got left =>
        rw [hg] at hti
        obtain ⟨pre, hp, hgot⟩ := hti
        cases left with
        | nil =>
          rw [List.append_nil] at hp
          subst hp
          rw [moveAll_full hc] at hgot
          exact ⟨hm, hgot⟩
        | cons c left =>
          refine ⟨hm, pre ++ [c], by simp [hp], ?_⟩
          simp only [hgot, hm]
          funext i
          simp only [Chunk.move, moveAll, covers_append]
          by_cases h1 : c i = true
          · simp [h1, covers]
          · simp [h1, covers]
      | done r => rw [hg] at hti; exact ⟨hm, hti⟩
    refine ⟨this.1, fun u => ?_⟩
    simp only [GSys.step]
    split
    · exact this.2
    · exact ht u) sched (GSys.start chunks a) ⟨rfl, fun _ => trivial⟩
  have := key.2 t
  rw [h] at this
  exact this

/-! ## Two ways the accesses are compiled -/

/-- Bytes `lo` up to `hi` -/
def word (lo hi : Nat) : Chunk := fun i => decide (lo ≤ i.val ∧ i.val < hi)

/-- Two overlapping 16 byte moves (amd64). -/
def amd64Chunks : List Chunk := [word 0 16, word 4 20]

/-- 8 + 8 + 4 bytes. -/
def wordChunks : List Chunk := [word 0 8, word 8 16, word 16 20]

theorem covers_amd64 (i : Fin 20) : covers amd64Chunks i := by revert i; decide
theorem covers_words (i : Fin 20) : covers wordChunks i := by revert i; decide

/-- C100 on amd64: a wrong address can be returned exactly if the address has non-zero bytes both in its first 16 and in its
last 4 bytes, which all but a negligible share of addresses have. -/
theorem C100_amd64_violated_iff (a : Cell) :
    (∃ sched t r, ((GSys.start amd64Chunks .zero).run amd64Chunks a sched).thread t = .done r ∧ r ≠ a) ↔
      (∃ i : Fin 20, i.val < 16 ∧ a i ≠ 0) ∧ ∃ i : Fin 20, 16 ≤ i.val ∧ a i ≠ 0 := by
  rw [C100_violated_iff amd64Chunks covers_amd64]
  constructor
  · rintro ⟨pre, suf, hp, ⟨i, hi, hai⟩, j, hj, haj⟩
    match pre, hp with
    | [], _ => simp [covers] at hi
    | [c], hp =>
      simp only [amd64Chunks, List.cons_append, List.nil_append, List.cons.injEq] at hp
      obtain ⟨rfl, _⟩ := hp
      simp only [covers, List.any_cons, List.any_nil, Bool.or_false, word, decide_eq_true_eq] at hi hj
      exact ⟨⟨i, hi.2, hai⟩, j, by omega, haj⟩
    | [c, d], hp =>
      have : [c, d] = amd64Chunks := by
        simp only [amd64Chunks, List.cons_append, List.nil_append, List.cons.injEq] at hp
        obtain ⟨rfl, rfl, _⟩ := hp; rfl
      rw [this] at hj
      exact absurd (covers_amd64 j) hj
    | c :: d :: e :: pre, hp => simp [amd64Chunks] at hp
  · rintro ⟨⟨i, hi, hai⟩, j, hj, haj⟩
    refine ⟨[word 0 16], [word 4 20], rfl, ⟨i, ?_, hai⟩, j, ?_, haj⟩
    · simp [covers, word, hi]
    · simp [covers, word]; omega

/-! ## Link to the sequential model -/

/-- The bytes of an address as a cell. -/
def Addr.cell (a : Addr) : Cell := fun i => a.val[i.val]'(by rw [a.property]; exact i.isLt)

/-- A call without interference does what the sequential model `Wallet.getAddress` does. -/
theorem C100_refines (chunks : List Chunk) (hc : ∀ i, covers chunks i) (H : Bytes → Hash32) (w : Wallet) (hw : WalletOk H w)
    (t : Nat) : ∃ k,
    ((GSys.start chunks (Addr.cell w.address)).run chunks (Addr.cell (publicKeyToAddress H w.publicKey))
        (List.replicate k t)).thread t = .done (Addr.cell (w.getAddress H).1) ∧
    ((GSys.start chunks (Addr.cell w.address)).run chunks (Addr.cell (publicKeyToAddress H w.publicKey))
        (List.replicate k t)).mem = Addr.cell (w.getAddress H).2.address := by
  have hr := (C50_address H w.privateKey w hw).2.2
  have hm : (w.getAddress H).2.address = publicKeyToAddress H w.publicKey := by
    unfold Wallet.getAddress
    by_cases hz : w.address = BArr.zero 20
    · rw [if_pos hz]
    · rw [if_neg hz]; exact hw.2.resolve_left hz
  rw [hr, hm]
  refine C100_sequential chunks hc _ _ ?_ t
  rcases hw.2 with h | h
  · left; rw [h]; funext i; exact List.getElem_replicate ..
  · right; rw [h]

example : ∃ sched t r, ((GSys.start amd64Chunks .zero).run amd64Chunks (fun i => UInt8.ofNat (i.val + 1)) sched).thread t
    = .done r ∧ r ≠ fun i => UInt8.ofNat (i.val + 1) :=
  (C100_amd64_violated_iff _).mpr ⟨⟨0, by decide, by decide⟩, 19, by decide, by decide⟩
end Nimiq.Wire
