import Verif.Tree.Readers
/-!
# C134: two goroutines call `PutEntry`

As in C106 the methods of the store are synchronised and nothing else is. Of all schedules this file needs only those in which
the second call runs from beginning to end while the first one is about to call its store.
-/
namespace Nimiq.Tree.Generic

variable {H : Bytes → Hash32}

/-! ## The schedules -/

/-- A `MemStore`, and how many calls the first goroutine may still make before the second one gets to run (`none`: it has
run). -/
structure Shared where
  nodes : GoMap Ptr
  wait : Option Nat

/-- What happens when the first goroutine is about to call the store: if it is time, the other one executes `PutEntry(b, u)` on
the same tree (tree.go:42-46, all of it). -/
def turn (H : Bytes → Hash32) (b : Addr) (u : Bytes) : GM Shared Unit := fun g =>
  match g.st.wait with
  | none => some ((), g)
  | some (k + 1) => some ((), { g with st := ⟨g.st.nodes, some k⟩ })
  | some 0 =>
    match Tree.putEntry H b u ⟨g.heap, g.next, .mem g.st.nodes⟩ with
    | some (_, ⟨h, n, .mem m⟩) => some ((), ⟨h, n, ⟨m, none⟩⟩)
    | _ => none

/-- store_mem.go:18-30, shared by the two goroutines -/
def shared (H : Bytes → Hash32) (b : Addr) (u : Bytes) : Impl Shared where
  getNode k := do
    turn H b u
    fun g => some (mget g.st.nodes k, g)
  putNode k p := do
    turn H b u
    fun g => some ((), { g with st := ⟨mput g.st.nodes k p, g.st.wait⟩ })
  delNode k := do
    turn H b u
    fun g => some ((), { g with st := ⟨mdel g.st.nodes k, g.st.wait⟩ })

/-- The content of a `MemStore`. -/
def nodesOf (w : World) : GoMap Ptr := match w.store with | .mem m => m | .overlay _ _ => []

/-- `PutEntry(a, v)`, with `PutEntry(b, u)` in another goroutine between its `k`-th and its next call of the store: the
first one's result and the state when both have returned. -/
def together (H : Bytes → Hash32) (a : Addr) (v : Bytes) (b : Addr) (u : Bytes) (k : Nat) (w : World) : Option (Bool × World) :=
  match putEntry (shared H b u) H a v ⟨w.heap, w.next, ⟨nodesOf w, some k⟩⟩ with
  | some (r, ⟨h, n, ⟨m, none⟩⟩) => some (r, ⟨h, n, .mem m⟩)
  | _ => none

/-! ## A key whose first digit is free -/

/-- One child of the root is dirty, and it is a leaf. -/
theorem loop_one {rec : Nibbles → TM Hash32} {p : Ptr} {i : Nib} {h : Hash32} : ∀ (l : List Nib) (w : World) (ch : Nib → Child),
    l.Nodup → w.heap p = .branch [] ch → (∀ j, j ≠ i → ¬ ((ch j).exist = true ∧ (ch j).hash = zeroHash)) →
    (ch i).exist = true → (ch i).hash = zeroHash → rec (ch i).suffix w = some (h, w) → i ∈ l →
    Tree.hashLoop rec [] p l w = some ((), { w with heap := fun q => if q = p then .branch [] (setChild ch i { ch i with hash := h }) else w.heap q }) := by
  have clean : ∀ (l : List Nib) (w : World) (ch : Nib → Child), w.heap p = .branch [] ch →
      (∀ j ∈ l, ¬ ((ch j).exist = true ∧ (ch j).hash = zeroHash)) → Tree.hashLoop rec [] p l w = some ((), w) := by
    intro l
    induction l with
    | nil => intros; rfl
    | cons j l ih =>
      intro w ch hp hc
      have hb : Tree.asBranch p w = some (([], ch), w) := by simp [Tree.asBranch, TM.bind_eq, Tree.deref, hp, Pure.pure, TM.pure]
      rw [Tree.hashLoop, TM.bind_eq, hb]
      simp only []
      rw [if_neg (hc j (List.mem_cons_self ..))]
      exact ih w ch hp fun x hx => hc x (List.mem_cons_of_mem _ hx)
  intro l
  induction l with
  | nil => intro w ch _ _ _ _ _ _ h; cases h
  | cons j l ih =>
    intro w ch hnd hp hc he hz hr hm
    have hb : Tree.asBranch p w = some (([], ch), w) := by simp [Tree.asBranch, TM.bind_eq, Tree.deref, hp, Pure.pure, TM.pure]
    rw [Tree.hashLoop, TM.bind_eq, hb]
    simp only []
    obtain ⟨n1, n2⟩ := List.nodup_cons.mp hnd
    by_cases hj : j = i
    · subst hj
      rw [if_pos ⟨he, hz⟩]
      simp only [TM.bind_eq, List.nil_append, hr, hb, Tree.write]
      refine clean l _ (setChild ch j { ch j with hash := h }) (by simp) fun x hx => ?_
      have hxj : x ≠ j := fun e => n1 (e ▸ hx)
      rw [setChild, if_neg hxj]
      exact hc x hxj
    · rw [if_neg (hc j hj)]
      exact ih w ch n2 hp hc he hz hr ((List.mem_cons.mp hm).resolve_left (Ne.symm hj))

/-- `PutEntry` of a new key whose first digit no key has: the leaf is hung on the root. -/
theorem put_slot {a : Addr} {v : Bytes} {w : World} {m : GoMap Ptr} {p0 : Ptr} {ch : Nib → Child} {i : Nib} {t : Nibbles}
    (hv : v ≠ []) (hm : w.store = .mem m) (h0 : mget m [] = some p0) (hlt : p0 < w.next) (hh : w.heap p0 = .branch [] ch)
    (hit : keyNibs a = i :: t) (hi : (ch i).exist = false) (hn : mget m (keyNibs a) = none)
    (hc : ∀ j, ¬ ((ch j).exist = true ∧ (ch j).hash = zeroHash)) :
    Tree.putEntry H a v w = some (true,
      ⟨fun q => if q = p0 then .branch [] (setChild ch i ⟨keyNibs a, H (leafBytes (keyNibs a) v), true⟩)
        else if q = w.next then .leaf (keyNibs a) v else w.heap q, w.next + 1,
       .mem (mput (mput (mput m (keyNibs a) w.next) [] p0) [] p0)⟩) := by
  have hget : ∀ k, w.store.get k = mget m k := fun k => by rw [hm]; rfl
  have hvl : ¬ v.length = 0 := fun h => hv (List.length_eq_zero_iff.mp h)
  have hpre0 : ¬ ¬ prefixOf ([] : Nibbles) (keyNibs a) = true := by simp [prefixOf]
  have hbr0 : ∀ w : World, w.heap p0 = .branch [] ch → Tree.asBranch p0 w = some (([], ch), w) := fun w hw => by
    simp [Tree.asBranch, TM.bind_eq, Tree.deref, hw, Pure.pure, TM.pure]
  have hz : p0 ≠ w.next := Nat.ne_of_lt hlt
  have hne := keyNibs_ne_nil a
  let wU : World := ⟨fun q => if q = p0 then .branch [] (setChild ch i ⟨keyNibs a, zeroHash, true⟩)
        else if q = w.next then .leaf (keyNibs a) v else w.heap q, w.next + 1,
       .mem (mput (mput m (keyNibs a) w.next) [] p0)⟩
  have hupd : Tree.updateEntry a v w = some (true, wU) := by
    simp only [Tree.updateEntry, TM.bind_eq, Tree.getNode, hget, hn, if_false, hvl, maxDepth]
    rw [Tree.update, if_neg hpre0, if_neg (Ne.symm hne)]
    simp only [TM.bind_eq, Tree.getNode, hget, h0, hbr0 w hh, List.length_nil, List.drop_zero]
    rw [hit]
    simp only [hi, Bool.false_eq_true, if_false]
    simp only [TM.bind_eq, Tree.alloc, Tree.putNode, hm, Store.put, Option.map_some]
    rw [hbr0 _ (by simp only [if_neg hz]; exact hh)]
    simp only [Tree.sliceFrom, List.length_nil, Nat.zero_le, if_true, List.drop_zero, Pure.pure, TM.pure, Tree.withChild,
      TM.bind_eq, Tree.write, Tree.putNode, Store.put, Option.map_some, Tree.invalidatePath]
    simp only [wU, hit]
  simp only [Tree.putEntry, TM.bind_eq, hupd]
  have hgU : ∀ k, wU.store.get k = if k = [] then some p0 else if k = keyNibs a then some w.next else mget m k := by
    intro k
    show mget (mput (mput m (keyNibs a) w.next) [] p0) k = _
    rw [mget_mput, mget_mput]
  have hhU : wU.heap p0 = .branch [] (setChild ch i ⟨keyNibs a, zeroHash, true⟩) := if_pos rfl
  rw [maxDepth, Tree.updateHashes]
  simp only [TM.bind_eq, Tree.getNode, hgU, if_true, Tree.deref, hhU]
  have hsame : setChild ch i ⟨keyNibs a, zeroHash, true⟩ i = ⟨keyNibs a, zeroHash, true⟩ := by simp [setChild]
  rw [loop_one (i := i) (h := H (leafBytes (keyNibs a) v)) _ wU _ (List.nodup_finRange 16) hhU ?_ ?_ ?_ ?_ (List.mem_finRange i)]
  · have hss : setChild (setChild ch i ⟨keyNibs a, zeroHash, true⟩) i
        { setChild ch i ⟨keyNibs a, zeroHash, true⟩ i with hash := H (leafBytes (keyNibs a) v) } =
        setChild ch i ⟨keyNibs a, H (leafBytes (keyNibs a) v), true⟩ := by
      rw [hsame]; funext j; simp only [setChild]; split <;> rfl
    rw [hss]
    simp only [Tree.asBranch, TM.bind_eq, Tree.deref, if_true, Pure.pure, TM.pure, Tree.putNode, wU, Store.put, Option.map_some]
    simp only [Option.some.injEq, Prod.mk.injEq, World.mk.injEq, and_true, true_and]
    funext q
    by_cases hq : q = p0 <;> simp [hq]
  · intro j hj
    rw [setChild, if_neg hj]; exact hc j
  · rw [hsame]
  · rw [hsame]
  · rw [hsame]
    show Tree.updateHashes H (62 + 1) (keyNibs a) wU = _
    rw [Tree.updateHashes]
    simp only [TM.bind_eq, Tree.getNode, hgU, if_neg hne, if_true, Tree.deref]
    have : wU.heap w.next = .leaf (keyNibs a) v := by
      show (if w.next = p0 then _ else if w.next = w.next then _ else _) = _
      rw [if_neg (Ne.symm hz), if_pos rfl]
    simp only [this]; rfl

/-! ## The same for the first goroutine, once the other has run -/

theorem turn_none {b : Addr} {u : Bytes} {g : GWorld Shared} (h : g.st.wait = none) : turn H b u g = some ((), g) := by
  unfold turn; rw [h]

theorem get_wait {b : Addr} {u : Bytes} (k : Nibbles) (h : Ptr → NodeObj) (n : Ptr) (m : GoMap Ptr) (j : Nat) :
    (shared H b u).getNode k ⟨h, n, ⟨m, some (j + 1)⟩⟩ = some (mget m k, ⟨h, n, ⟨m, some j⟩⟩) := rfl
theorem get_done {b : Addr} {u : Bytes} (k : Nibbles) (h : Ptr → NodeObj) (n : Ptr) (m : GoMap Ptr) :
    (shared H b u).getNode k ⟨h, n, ⟨m, none⟩⟩ = some (mget m k, ⟨h, n, ⟨m, none⟩⟩) := rfl
theorem put_done {b : Addr} {u : Bytes} (k : Nibbles) (p : Ptr) (h : Ptr → NodeObj) (n : Ptr) (m : GoMap Ptr) :
    (shared H b u).putNode k p ⟨h, n, ⟨m, none⟩⟩ = some ((), ⟨h, n, ⟨mput m k p, none⟩⟩) := rfl
theorem put_zero {b : Addr} {u : Bytes} (k : Nibbles) (p : Ptr) {h h' : Ptr → NodeObj} {n n' : Ptr} {m m' : GoMap Ptr} {r}
    (hB : Tree.putEntry H b u ⟨h, n, .mem m⟩ = some (r, ⟨h', n', .mem m'⟩)) :
    (shared H b u).putNode k p ⟨h, n, ⟨m, some 0⟩⟩ = some ((), ⟨h', n', ⟨mput m' k p, none⟩⟩) := by
  have ht : turn H b u ⟨h, n, ⟨m, some 0⟩⟩ = some ((), ⟨h', n', ⟨m', none⟩⟩) := by simp only [turn, hB]
  have hb : ∀ (f : Unit → GM Shared Unit) g g', turn H b u g = some ((), g') → (turn H b u >>= f) g = f () g' := by
    intro f g g' h; rw [GM.bind_eq, h]
  exact hb _ _ _ ht

theorem gloop_one {rec : Nibbles → GM Shared Hash32} {p : Ptr} {i : Nib} {h : Hash32} : ∀ (l : List Nib) (g : GWorld Shared)
    (ch : Nib → Child), l.Nodup → g.heap p = .branch [] ch →
    (∀ j, j ≠ i → ¬ ((ch j).exist = true ∧ (ch j).hash = zeroHash)) →
    (ch i).exist = true → (ch i).hash = zeroHash → rec (ch i).suffix g = some (h, g) → i ∈ l →
    hashLoop rec [] p l g = some ((), { g with heap := fun q => if q = p then .branch [] (setChild ch i { ch i with hash := h }) else g.heap q }) := by
  have clean : ∀ (l : List Nib) (w : GWorld Shared) (ch : Nib → Child), w.heap p = .branch [] ch →
      (∀ j ∈ l, ¬ ((ch j).exist = true ∧ (ch j).hash = zeroHash)) → hashLoop rec [] p l w = some ((), w) := by
    intro l
    induction l with
    | nil => intros; rfl
    | cons j l ih =>
      intro w ch hp hc
      have hb : asBranch p w = some (([], ch), w) := by simp [asBranch, GM.bind_eq, deref, hp, Pure.pure, GM.pure]
      rw [hashLoop, GM.bind_eq, hb]
      simp only []
      rw [if_neg (hc j (List.mem_cons_self ..))]
      exact ih w ch hp fun x hx => hc x (List.mem_cons_of_mem _ hx)
  intro l
  induction l with
  | nil => intro w ch _ _ _ _ _ _ h; cases h
  | cons j l ih =>
    intro w ch hnd hp hc he hz hr hm
    have hb : asBranch p w = some (([], ch), w) := by simp [asBranch, GM.bind_eq, deref, hp, Pure.pure, GM.pure]
    rw [hashLoop, GM.bind_eq, hb]
    simp only []
    obtain ⟨n1, n2⟩ := List.nodup_cons.mp hnd
    by_cases hj : j = i
    · subst hj
      rw [if_pos ⟨he, hz⟩]
      simp only [GM.bind_eq, List.nil_append, hr, hb, write]
      refine clean l _ (setChild ch j { ch j with hash := h }) (by simp) fun x hx => ?_
      have hxj : x ≠ j := fun e => n1 (e ▸ hx)
      rw [setChild, if_neg hxj]
      exact hc x hxj
    · rw [if_neg (hc j hj)]
      exact ih w ch n2 hp hc he hz hr ((List.mem_cons.mp hm).resolve_left (Ne.symm hj))

/-- The second put runs while the first is about to store its leaf: both leaves are stored, and on the root hangs the first
one's. -/
theorem together_slot {a b : Addr} {v u : Bytes} {w : World} {m : GoMap Ptr} {p0 : Ptr} {ch : Nib → Child} {i : Nib} {t s : Nibbles}
    (hv : v ≠ []) (hu : u ≠ []) (hab : a ≠ b) (hm : w.store = .mem m) (h0 : mget m [] = some p0) (hlt : p0 < w.next)
    (hh : w.heap p0 = .branch [] ch) (hit : keyNibs a = i :: t) (his : keyNibs b = i :: s) (hi : (ch i).exist = false)
    (hna : mget m (keyNibs a) = none) (hnb : mget m (keyNibs b) = none)
    (hc : ∀ j, ¬ ((ch j).exist = true ∧ (ch j).hash = zeroHash)) :
    ∃ w' m', together H a v b u 2 w = some (true, w') ∧ w'.store = .mem m' ∧ mget m' [] = some p0 ∧
      w'.heap p0 = .branch [] (setChild ch i ⟨keyNibs a, H (leafBytes (keyNibs a) v), true⟩) ∧
      (∃ p, mget m' (keyNibs a) = some p ∧ w'.heap p = .leaf (keyNibs a) v) ∧
      (∃ p, mget m' (keyNibs b) = some p ∧ w'.heap p = .leaf (keyNibs b) u) := by
  have hvl : ¬ v.length = 0 := fun h => hv (List.length_eq_zero_iff.mp h)
  have hpre0 : ¬ ¬ prefixOf ([] : Nibbles) (keyNibs a) = true := by simp [prefixOf]
  have hbr : ∀ (g : GWorld Shared) ch, g.heap p0 = .branch [] ch → asBranch p0 g = some (([], ch), g) := fun w ch hw => by
    simp [asBranch, GM.bind_eq, deref, hw, Pure.pure, GM.pure]
  have hz : p0 ≠ w.next := Nat.ne_of_lt hlt
  have hz1 : p0 ≠ w.next + 1 := Nat.ne_of_lt (Nat.lt_succ_of_lt hlt)
  have hz2 : w.next ≠ w.next + 1 := Nat.ne_of_lt (Nat.lt_succ_self _)
  have hne := keyNibs_ne_nil a
  have hneb := keyNibs_ne_nil b
  have hkab : keyNibs a ≠ keyNibs b := fun e => hab (keyNibs_inj e)
  have hnodes : nodesOf w = m := by unfold nodesOf; rw [hm]
  -- the second goroutine's put
  let w1 : World := ⟨fun p => if p = w.next then .leaf (keyNibs a) v else w.heap p, w.next + 1, .mem m⟩
  have hB := put_slot (H := H) (a := b) (v := u) (w := w1) (m := m) (p0 := p0) (ch := ch) (i := i) (t := s) hu rfl h0
    (Nat.lt_succ_of_lt hlt) (by show (if p0 = w.next then _ else _) = _; rw [if_neg hz]; exact hh) his hi hnb hc
  -- the state after it
  let chB := setChild ch i ⟨keyNibs b, H (leafBytes (keyNibs b) u), true⟩
  let mB := mput (mput (mput m (keyNibs b) (w.next + 1)) [] p0) [] p0
  let hpB : Ptr → NodeObj := fun q => if q = p0 then .branch [] chB else if q = w.next + 1 then .leaf (keyNibs b) u else
    if q = w.next then .leaf (keyNibs a) v else w.heap q
  -- the state after the first one's update
  let gU : GWorld Shared := ⟨fun q => if q = p0 then .branch [] (setChild chB i ⟨keyNibs a, zeroHash, true⟩) else hpB q, w.next + 2,
    ⟨mput (mput mB (keyNibs a) w.next) [] p0, none⟩⟩
  have hupd : updateEntry (shared H b u) a v ⟨w.heap, w.next, ⟨nodesOf w, some 2⟩⟩ = some (true, gU) := by
    rw [updateEntry, hnodes]
    simp only [GM.bind_eq, get_wait, hna, if_false, hvl]
    rw [maxDepth, update, if_neg hpre0, if_neg (Ne.symm hne)]
    simp only [GM.bind_eq, get_wait, h0]
    rw [hbr _ ch hh]
    simp only [List.length_nil, List.drop_zero]
    rw [hit]
    simp only [hi, Bool.false_eq_true, if_false]
    simp only [GM.bind_eq, alloc]
    rw [← hit, put_zero _ _ hB]
    simp only []
    rw [hbr _ chB (by simp [chB])]
    simp only [sliceFrom, List.length_nil, Nat.zero_le, if_true, List.drop_zero, Pure.pure, GM.pure]
    rw [hit]
    simp only [withChild, Pure.pure, GM.pure, write, invalidatePath, put_done]
    rw [← hit]
  have hgn : ∀ k, (shared H b u).getNode k gU = some (mget gU.st.nodes k, gU) := fun _ => rfl
  have hgU : ∀ k, mget gU.st.nodes k = if k = [] then some p0 else if k = keyNibs a then some w.next else
      if k = keyNibs b then some (w.next + 1) else mget m k := by
    intro k
    show mget (mput (mput mB (keyNibs a) w.next) [] p0) k = _
    simp only [mB]
    rw [mget_mput, mget_mput, mget_mput, mget_mput, mget_mput]
    by_cases hk : k = [] <;> simp [hk]
  have hsame : setChild chB i ⟨keyNibs a, zeroHash, true⟩ i = ⟨keyNibs a, zeroHash, true⟩ := by simp [setChild]
  have hhU : gU.heap p0 = .branch [] (setChild chB i ⟨keyNibs a, zeroHash, true⟩) := if_pos rfl
  have hleafA : gU.heap w.next = .leaf (keyNibs a) v := by
    simp only [gU, hpB]
    rw [if_neg (Ne.symm hz), if_neg (Ne.symm hz), if_neg hz2, if_pos trivial]
  have hleafB : gU.heap (w.next + 1) = .leaf (keyNibs b) u := by
    simp only [gU, hpB]
    rw [if_neg (Ne.symm hz1), if_neg (Ne.symm hz1), if_pos trivial]
  have hrec : updateHashes (shared H b u) H 63 (keyNibs a) gU = some (H (leafBytes (keyNibs a) v), gU) := by
    rw [updateHashes]
    simp only [GM.bind_eq, hgn, hgU, if_neg hne, if_true, deref, hleafA]
    rfl
  have hput : putEntry (shared H b u) H a v ⟨w.heap, w.next, ⟨nodesOf w, some 2⟩⟩ = some (true,
      ⟨fun q => if q = p0 then .branch [] (setChild ch i ⟨keyNibs a, H (leafBytes (keyNibs a) v), true⟩) else gU.heap q,
        w.next + 2, ⟨mput gU.st.nodes [] p0, none⟩⟩) := by
    simp only [putEntry, GM.bind_eq, hupd]
    rw [maxDepth, updateHashes]
    simp only [GM.bind_eq, hgn, hgU, if_true, deref, hhU]
    rw [gloop_one (i := i) (h := H (leafBytes (keyNibs a) v)) _ gU _ (List.nodup_finRange 16) hhU ?_ ?_ ?_ ?_ (List.mem_finRange i)]
    · have hss : setChild (setChild chB i ⟨keyNibs a, zeroHash, true⟩) i
          { setChild chB i ⟨keyNibs a, zeroHash, true⟩ i with hash := H (leafBytes (keyNibs a) v) } =
          setChild ch i ⟨keyNibs a, H (leafBytes (keyNibs a) v), true⟩ := by
        rw [hsame]; funext j; simp only [setChild, chB]; split <;> rfl
      rw [hss]
      simp only []
      rw [hbr _ _ (if_pos rfl)]
      simp only [GM.bind_eq, gU, put_done]
      rfl
    · intro j hj
      simp only [setChild, chB, if_neg hj]; exact hc j
    · rw [hsame]
    · rw [hsame]
    · rw [hsame]; exact hrec
  refine ⟨_, mput gU.st.nodes [] p0, by rw [together, hput], rfl, ?_, if_pos rfl, ⟨w.next, ?_, ?_⟩, ⟨w.next + 1, ?_, ?_⟩⟩
  · rw [mget_mput, if_pos rfl]
  · rw [mget_mput, if_neg hne, hgU, if_neg hne, if_pos rfl]
  · show (if w.next = p0 then _ else _) = _
    rw [if_neg (Ne.symm hz)]; exact hleafA
  · rw [mget_mput, if_neg hneb, hgU, if_neg hneb, if_neg (Ne.symm hkab), if_pos rfl]
  · show (if w.next + 1 = p0 then _ else _) = _
    rw [if_neg (Ne.symm hz1)]; exact hleafB

theorem clean_root {M : Spec.Mapping} {w : World} (hH : ∀ x, H x ≠ zeroHash) (I : TreeInv H w M) {ch : Nib → Child}
    (hb : w.view [] = some (.branch [] ch)) : ∀ i, ¬ ((ch i).exist = true ∧ (ch i).hash = zeroHash) := by
  rintro i ⟨h4, h5⟩
  have hl := I.clean [] ch i hb h4
  have ht := (I.loc.child hb h4).2
  cases ho : w.view ([] ++ (ch i).suffix) with
  | none => exact ht ho
  | some o =>
    have := hl o ho
    rw [h5] at this
    cases o <;> exact hH _ this.symm

/-- **C134 is violated**: an update is lost. Whatever the tree holds, if no entry begins with a certain hex digit and two goroutines
give values to two keys that begin with it, there is a schedule after which both values can be read, but the hash of the tree
is that of the mapping without the second entry; and putting the second entry again, any number of times, reports no change
and leaves that hash. -/
theorem C134_lost_update_violated (hH : ∀ x, H x ≠ zeroHash) (puts : List (Addr × Bytes)) (a b : Addr) (v u : Bytes)
    (hv : v ≠ []) (hu : u ≠ []) (hab : a ≠ b) (hf : (Spec.nibbles a).head? = (Spec.nibbles b).head?)
    (hfree : ∀ c, (Spec.nibbles c).head? = (Spec.nibbles a).head? → Spec.final puts c = []) :
    ∃ w, Tree.runPuts H puts newWorld = some w ∧ ∃ k w', together H a v b u k w = some (true, w') ∧
      Tree.getEntry a w' = some (some v, w') ∧ ∀ n, ∃ s, Tree.runPuts H (List.replicate n (b, u)) w' = some s ∧
        Tree.getEntry b s = some (some u, s) ∧ (∃ s', Tree.putEntry H b u s = some (false, s')) ∧
        Tree.hash H s = some (Spec.rootHash H (Spec.set (Spec.final puts) a v), s) := by
  obtain ⟨w, h1, G⟩ := reach (H := H) puts
  refine ⟨w, h1, 2, ?_⟩
  obtain ⟨m, hm⟩ := G.mem
  obtain ⟨ch, hb⟩ := G.inv.loc.root
  obtain ⟨p0, hp0, hh0⟩ := G.inv.wf.r.get hb
  have hget : ∀ k, w.store.get k = mget m k := fun k => by rw [hm]; rfl
  have hlt := G.inv.wf.alloc hp0
  rw [hget] at hp0
  obtain ⟨i, t, hit⟩ : ∃ i t, keyNibs a = i :: t := by
    cases h : keyNibs a with
    | nil => exact absurd h (keyNibs_ne_nil a)
    | cons i t => exact ⟨i, t, rfl⟩
  obtain ⟨s, his⟩ : ∃ s, keyNibs b = i :: s := by
    rw [← keyNibs_eq, ← keyNibs_eq, hit] at hf
    cases h : keyNibs b with
    | nil => exact absurd h (keyNibs_ne_nil b)
    | cons j s => rw [h] at hf; simp at hf; exact ⟨s, by rw [hf]⟩
  have hi : (ch i).exist = false := by
    cases h : (ch i).exist with
    | false => rfl
    | true =>
      obtain ⟨c, hc, hc'⟩ := (G.inv.slot_iff hb i).mp h
      refine absurd (hfree c ?_) hc
      obtain ⟨r, hr⟩ := hc'
      rw [← hr, ← keyNibs_eq, hit]; rfl
  have hnone : ∀ c, Spec.final puts c = [] → mget m (keyNibs c) = none := by
    intro c hc
    have := G.inv.map c
    rw [if_pos hc] at this
    rw [← hget]; exact G.inv.wf.r.get_none this
  have hna := hnone a (hfree a rfl)
  have hnb := hnone b (hfree b hf.symm)
  have hc := clean_root hH G.inv hb
  obtain ⟨w', m', e1, e2, e3, e4, ⟨pa, e5, e6⟩, ⟨pb, e7, e8⟩⟩ := together_slot (H := H) (v := v) (u := u) hv hu hab hm hp0 hlt hh0 hit his hi hna hnb hc
  have hget' : ∀ k, w'.store.get k = mget m' k := fun k => by rw [e2]; rfl
  refine ⟨w', e1, ?_, ?_⟩
  · simp only [Tree.getEntry, TM.bind_eq, Tree.getNode, hget', e5, Tree.deref, e6]; rfl
  have S : Settled b u (setChild ch i ⟨keyNibs a, H (leafBytes (keyNibs a) v), true⟩) w' :=
    ⟨⟨m', e2⟩, ⟨p0, by rw [hget']; exact e3, e4⟩, .inl ⟨pb, by rw [hget']; exact e7, e8⟩⟩
  have hc' : ∀ j, ¬ ((setChild ch i ⟨keyNibs a, H (leafBytes (keyNibs a) v), true⟩ j).exist = true ∧
      (setChild ch i ⟨keyNibs a, H (leafBytes (keyNibs a) v), true⟩ j).hash = zeroHash) := by
    intro j
    by_cases hj : j = i
    · subst hj; simp only [setChild, if_true]; exact fun h => hH _ h.2
    · simp only [setChild, if_neg hj]; exact hc j
  -- the hash of the root, from the first put alone
  have hroot : objHash H (.branch [] (setChild ch i ⟨keyNibs a, H (leafBytes (keyNibs a) v), true⟩)) =
      Spec.rootHash H (Spec.set (Spec.final puts) a v) := by
    have hA := put_slot (H := H) hv hm hp0 hlt hh0 hit hi hna hc
    obtain ⟨r, wA, -, -, h3, -, GA⟩ := G.put a v
    rw [hA] at h3
    simp only [Option.some.injEq, Prod.mk.injEq] at h3
    obtain ⟨-, rfl⟩ := h3
    have := hash_spec GA.inv
    simp only [Tree.hash, TM.bind_eq, Tree.getNode, Store.get, mget_mput, if_true, Tree.asBranch, Tree.deref, Pure.pure, TM.pure,
      Option.some.injEq, Prod.mk.injEq, and_true] at this
    exact this
  intro n
  obtain ⟨s', f1, S'⟩ := S.run (H := H) hc' n
  obtain ⟨p', hp', hb'⟩ := S'.root
  refine ⟨s', f1, ?_, ?_, ?_⟩
  · rcases S'.key with ⟨q, f1, f2⟩ | ⟨f1, f2⟩
    · simp only [Tree.getEntry, TM.bind_eq, Tree.getNode, f1, Tree.deref, f2]; rfl
    · exact absurd f1 hu
  · obtain ⟨s'', e2, -⟩ := S'.again (H := H) hc'
    exact ⟨s'', e2⟩
  · rw [← hroot]
    have : Tree.asBranch p' s' = some (([], setChild ch i ⟨keyNibs a, H (leafBytes (keyNibs a) v), true⟩), s') := by
      simp only [Tree.asBranch, TM.bind_eq, Tree.deref, hb']; rfl
    simp only [Tree.hash, TM.bind_eq, Tree.getNode, hp', this]
    rfl

/-- That hash is the one both orders of the two puts would have given only if `H` has a collision among the strings hashed. -/
theorem C134_not_serial (puts : List (Addr × Bytes)) (a b : Addr) (v u : Bytes) (hu : u ≠ []) (hab : a ≠ b)
    (hfree : Spec.final puts b = [])
    (h : Spec.rootHash H (Spec.set (Spec.final puts) a v) = Spec.rootHash H (Spec.final (puts ++ [(a, v), (b, u)])) ∨
      Spec.rootHash H (Spec.set (Spec.final puts) a v) = Spec.rootHash H (Spec.final (puts ++ [(b, u), (a, v)]))) :
    ∃ x y, x ≠ y ∧ H x = H y := by
  have key : ∀ M, M b = u → Spec.rootHash H (Spec.set (Spec.final puts) a v) = Spec.rootHash H M → ∃ x y, x ≠ y ∧ H x = H y := by
    intro M hM h
    rcases root_binding h with e | ⟨x, -, y, -, hxy, e⟩
    · exfalso
      have := congrFun e b
      rw [hM, Spec.set, if_neg (Ne.symm hab), hfree] at this
      exact hu this.symm
    · exact ⟨x, y, hxy, e⟩
  rcases h with h | h
  · refine key _ ?_ h
    simp [Spec.final, Spec.set]
  · refine key _ ?_ h
    simp [Spec.final, Spec.set, hab]

/-! ## The schedules without overlap -/

/-- The content of the shared store, once the second put has run; before that, nothing that a `MemStore` can hold. -/
def sharedView (s : Shared) (k : Nibbles) : Option Ptr := match s.wait with
  | none => mget s.nodes k
  | some _ => some 0

theorem shared_sim {g : GWorld Shared} {w : World} (h : Sim sharedView g w) : g.st.wait = none := by
  obtain ⟨-, -, m, -, h4⟩ := h
  cases hw : g.st.wait with
  | none => rfl
  | some _ =>
    exfalso
    simp only [sharedView, hw] at h4
    -- a finite map does not hold every key
    have key : ∀ m : GoMap Ptr, ∃ n, ∀ k : Nibbles, n ≤ k.length → mget m k = none := by
      intro m
      induction m with
      | nil => exact ⟨0, fun _ _ => rfl⟩
      | cons e m ih =>
        obtain ⟨n, hn⟩ := ih
        refine ⟨max n (e.1.length + 1), fun k hk => ?_⟩
        have h1 : e.1 ≠ k := by rintro rfl; have := Nat.le_trans (Nat.le_max_right ..) hk; omega
        have := hn k (Nat.le_trans (Nat.le_max_left ..) hk)
        obtain ⟨x, y⟩ := e
        simp only [mget, List.find?_cons, decide_eq_false h1] at this ⊢
        exact this
    obtain ⟨n, hn⟩ := key m
    have := h4 (List.replicate n 0)
    rw [hn _ (by simp)] at this
    cases this

theorem shared_ops (b : Addr) (u : Bytes) : SimOps (shared H b u) sharedView := by
  refine ⟨fun k g w h => ?_, fun k p g w h => ?_, fun k g w h => ?_⟩ <;>
  · have hn := shared_sim h
    obtain ⟨h1, h2, m, h3, h4⟩ := h
    obtain ⟨hp, n, ⟨m', wt⟩⟩ := g
    simp only at hn; subst hn
    obtain ⟨hp', n', st⟩ := w
    simp only [sharedView] at h1 h2 h3 h4
    subst h1; subst h2; subst h3
    first
    | exact .inr ⟨_, _, _, rfl, rfl, rfl, rfl, m, rfl, h4⟩
    | exact .inr ⟨mget m' k, _, _, rfl, by rw [h4]; rfl, rfl, rfl, m, rfl, h4⟩
    | exact .inr ⟨_, _, _, rfl, rfl, rfl, rfl, _, rfl, fun q => by simp only [sharedView, mget_mput, mget_mdel, h4]⟩

theorem get_zero {b : Addr} {u : Bytes} (k : Nibbles) {h h' : Ptr → NodeObj} {n n' : Ptr} {m m' : GoMap Ptr} {r}
    (hB : Tree.putEntry H b u ⟨h, n, .mem m⟩ = some (r, ⟨h', n', .mem m'⟩)) :
    (shared H b u).getNode k ⟨h, n, ⟨m, some 0⟩⟩ = some (mget m' k, ⟨h', n', ⟨m', none⟩⟩) := by
  have ht : turn H b u ⟨h, n, ⟨m, some 0⟩⟩ = some ((), ⟨h', n', ⟨m', none⟩⟩) := by simp only [turn, hB]
  have hb : ∀ (f : Unit → GM Shared (Option Ptr)) g g', turn H b u g = some ((), g') → (turn H b u >>= f) g = f () g' := by
    intro f g g' h; rw [GM.bind_eq, h]
  exact hb _ _ _ ht

/-- A computation that begins with a read of the store. -/
theorem first_get {b : Addr} {u : Bytes} {α} (k : Nibbles) (f : Option Ptr → GM Shared α) {h h' : Ptr → NodeObj} {n n' : Ptr}
    {m m' : GoMap Ptr} {r} (hB : Tree.putEntry H b u ⟨h, n, .mem m⟩ = some (r, ⟨h', n', .mem m'⟩)) :
    ((shared H b u).getNode k >>= f) ⟨h, n, ⟨m, some 0⟩⟩ = ((shared H b u).getNode k >>= f) ⟨h', n', ⟨m', none⟩⟩ := by
  rw [GM.bind_eq, GM.bind_eq, get_zero k hB, get_done]

/-- What `PutEntry` does after it has read the entry. -/
def rest (I : Impl σ) (H : Bytes → Hash32) (a : Addr) (v : Bytes) (same : Bool) : GM σ Bool := do
  let changed ← (if same = true then pure false else do
    update I maxDepth [] (keyNibs a) v []
    pure true : GM σ Bool)
  let _ ← updateHashes I H maxDepth []
  return changed

theorem first_rest {b : Addr} {u : Bytes} (a : Addr) (v : Bytes) (same : Bool) {h h' : Ptr → NodeObj} {n n' : Ptr}
    {m m' : GoMap Ptr} {r} (hB : Tree.putEntry H b u ⟨h, n, .mem m⟩ = some (r, ⟨h', n', .mem m'⟩)) :
    rest (shared H b u) H a v same ⟨h, n, ⟨m, some 0⟩⟩ = rest (shared H b u) H a v same ⟨h', n', ⟨m', none⟩⟩ := by
  cases same with
  | true =>
    have : ∀ g g' : GWorld Shared, updateHashes (shared H b u) H maxDepth [] g = updateHashes (shared H b u) H maxDepth [] g' →
        rest (shared H b u) H a v true g = rest (shared H b u) H a v true g' := by
      intro g g' e
      have hp : ∀ g : GWorld Shared, (Pure.pure false : GM Shared Bool) g = some (false, g) := fun _ => rfl
      simp only [rest, if_true, GM.bind_eq, hp, e]
    refine this _ _ ?_
    rw [maxDepth, updateHashes]
    exact first_get [] _ hB
  | false =>
    have hpre0 : ¬ ¬ prefixOf ([] : Nibbles) (keyNibs a) = true := by simp [prefixOf]
    have : ∀ g g' : GWorld Shared, update (shared H b u) maxDepth [] (keyNibs a) v [] g = update (shared H b u) maxDepth [] (keyNibs a) v [] g' →
        rest (shared H b u) H a v false g = rest (shared H b u) H a v false g' := by
      intro g g' e
      simp only [rest, Bool.false_eq_true, if_false, GM.bind_eq, e]
    refine this _ _ ?_
    rw [maxDepth, update, if_neg hpre0, if_neg (Ne.symm (keyNibs_ne_nil a))]
    exact first_get [] _ hB

theorem put_rest {I : Impl σ} {a : Addr} {v x : Bytes} {g g1 : GWorld σ} {p l} (h1 : I.getNode (keyNibs a) g = some (some p, g1))
    (h2 : g1.heap p = .leaf l x) : putEntry I H a v g = rest I H a v (decide (x = v)) g1 := by
  by_cases hx : x = v
  · simp only [putEntry, updateEntry, rest, GM.bind_eq, h1, deref, h2, if_pos hx, decide_eq_true hx, if_true]
  · simp only [putEntry, updateEntry, rest, GM.bind_eq, h1, deref, h2, if_neg hx, decide_eq_false hx, Bool.false_eq_true, if_false]

theorem put_rest_none {I : Impl σ} {a : Addr} {v : Bytes} {g g1 : GWorld σ} (h1 : I.getNode (keyNibs a) g = some (none, g1)) :
    putEntry I H a v g = rest I H a v (decide (v.length = 0)) g1 := by
  by_cases hx : v.length = 0
  · simp only [putEntry, updateEntry, rest, GM.bind_eq, h1, if_pos hx, decide_eq_true hx, if_true]
  · simp only [putEntry, updateEntry, rest, GM.bind_eq, h1, if_neg hx, decide_eq_false hx, Bool.false_eq_true, if_false]

/-- **C134**, the schedules in which the calls do not really overlap: if the second put runs before the first one's first store
call, or after the one by which it looks up its entry, the result is that of the second put followed by the first. -/
theorem C134_serial_partial (puts : List (Addr × Bytes)) (a b : Addr) (v u : Bytes) (hab : a ≠ b) (k : Nat) (hk : k ≤ 1) :
    ∃ w wb w1 r1 r w2, Tree.runPuts H puts newWorld = some w ∧ Tree.putEntry H b u w = some (r1, wb) ∧
      Tree.putEntry H a v wb = some (r, w1) ∧ together H a v b u k w = some (r, w2) ∧
      w2.heap = w1.heap ∧ ∀ k, w2.store.get k = w1.store.get k := by
  obtain ⟨w, h1, G⟩ := reach (H := H) puts
  obtain ⟨r1, wb, -, -, h3, -, Gb⟩ := G.put b u
  obtain ⟨r, w1, -, -, h4, -, -⟩ := Gb.put a v
  obtain ⟨m, hm⟩ := G.mem
  obtain ⟨m', hm'⟩ := Gb.mem
  obtain ⟨hp, n, st⟩ := w
  obtain ⟨hp', n', st'⟩ := wb
  simp only at hm hm'; subst hm; subst hm'
  have hseq : putEntry (shared H b u) H a v ⟨hp, n, ⟨m, some k⟩⟩ = putEntry (shared H b u) H a v ⟨hp', n', ⟨m', none⟩⟩ := by
    match k, hk with
    | 0, _ =>
      have : ∀ g g' : GWorld Shared, updateEntry (shared H b u) a v g = updateEntry (shared H b u) a v g' →
          putEntry (shared H b u) H a v g = putEntry (shared H b u) H a v g' := by
        intro g g' e
        simp only [putEntry, GM.bind_eq, e]
      exact this _ _ (first_get _ _ h3)
    | 1, _ =>
      have ha := G.inv.map a
      have ha' := Gb.inv.map a
      rw [Spec.set, if_neg hab] at ha'
      by_cases he : Spec.final puts a = []
      · rw [if_pos he] at ha ha'
        have e1 := G.inv.wf.r.get_none ha
        have e2 := Gb.inv.wf.r.get_none ha'
        rw [put_rest_none (by rw [get_wait]; simp only [Store.get] at e1; rw [e1]),
          put_rest_none (by rw [get_done]; simp only [Store.get] at e2; rw [e2])]
        exact first_rest a v _ h3
      · rw [if_neg he] at ha ha'
        obtain ⟨p, e1, e2⟩ := G.inv.wf.r.get ha
        obtain ⟨p', e3, e4⟩ := Gb.inv.wf.r.get ha'
        rw [put_rest (by rw [get_wait]; simp only [Store.get] at e1; rw [e1]) e2,
          put_rest (by rw [get_done]; simp only [Store.get] at e3; rw [e3]) e4]
        exact first_rest a v _ h3
  have hs : Sim sharedView (⟨hp', n', ⟨m', none⟩⟩ : GWorld Shared) ⟨hp', n', .mem m'⟩ := ⟨rfl, rfl, m', rfl, fun _ => rfl⟩
  rcases sim_putEntry (H := H) (shared_ops (H := H) b u) a v _ _ hs with ⟨-, h⟩ | ⟨r', g', w', f1, f2, f3⟩
  · rw [h4] at h; cases h
  · rw [h4] at f2
    simp only [Option.some.injEq, Prod.mk.injEq] at f2
    obtain ⟨rfl, rfl⟩ := f2
    have hw := shared_sim f3
    obtain ⟨hg, ng, ⟨mg, wg⟩⟩ := g'
    simp only at hw; subst hw
    obtain ⟨e1, e2, mm, e3, e4⟩ := f3
    refine ⟨_, _, w1, r1, r, ⟨hg, ng, .mem mg⟩, h1, h3, h4, ?_, e1, fun k => ?_⟩
    · simp only [together, nodesOf, hseq, f1]
    · rw [e3]; exact e4 k

/-- Two keys that begin with the same digit, and the empty tree. -/
example : exA ≠ exB ∧ (Spec.nibbles exA).head? = (Spec.nibbles exB).head? ∧
    ∀ c, (Spec.nibbles c).head? = (Spec.nibbles exA).head? → Spec.final [] c = [] :=
  ⟨by decide, by decide, fun _ _ => rfl⟩

end Nimiq.Tree.Generic
