import Verif.Tree.Interrupt
import Verif.Tree.Discard
import Verif.Tree.Forks
/-!
# C143, the tree: the lower store while an overlay is written down

`Flush` (store_overlay.go:31-41) writes one node after the other into the lower store, in the order in which Go happens to visit
the map. Here is what the lower store shows in between: to another goroutine, or after a crash that loses the overlay.
-/
namespace Nimiq.Tree

variable {H : Bytes → Hash32}

theorem mget_cons' {V} (k : Nibbles) (n : V) (l : GoMap V) (q : Nibbles) :
    mget ((k, n) :: l) q = if k = q then some n else mget l q := by
  unfold mget
  by_cases h : k = q <;> simp [h]

/-- The lower store in the `i`-th state of a `Flush`: `(i + 1) / 2` entries have been written. -/
theorem flushStates_lower : ∀ (order : List (Nibbles × Option Ptr)) (lower : Store) (d : GoMap (Option Ptr)), lower.Usable →
    NodupKeys order → ∀ (i : Nat) (s : Store), (flushStates order lower d)[i]? = some s → ∃ l' d', s = .overlay l' (some d') ∧
      ∀ q, l'.get q = (mget (order.take ((i + 1) / 2)) q).getD (lower.get q)
  | [], lower, d, hu, _, i, s, h => by
    rw [flushStates] at h
    cases i with
    | zero => cases h; exact ⟨_, _, rfl, fun q => by simp [mget]⟩
    | succ i => simp at h
  | (k, n) :: rest, lower, d, hu, ho, i, s, h => by
    obtain ⟨lower', h1, h2, h3⟩ : ∃ l', flushOne lower k n = some l' ∧ l'.Usable ∧
        ∀ q, l'.get q = if q = k then n else lower.get q := by
      cases n with
      | none => exact Store.del_spec lower hu k
      | some p => exact Store.put_spec lower hu k p
    unfold NodupKeys at ho
    rw [List.map_cons, List.nodup_cons] at ho
    rw [flushStates, h1] at h
    match i, h with
    | 0, h => cases h; exact ⟨_, _, rfl, fun q => by simp [mget]⟩
    | 1, h =>
      cases h
      refine ⟨_, _, rfl, fun q => ?_⟩
      show lower'.get q = (mget ((k, n) :: rest.take 0) q).getD (lower.get q)
      rw [h3, mget_cons']
      by_cases e : q = k
      · subst e; simp
      · rw [if_neg e, if_neg (Ne.symm e)]; simp [mget]
    | i + 2, h =>
      obtain ⟨l', d', rfl, e⟩ := flushStates_lower rest lower' (mdel d k) h2 ho.2 i s h
      refine ⟨l', d', rfl, fun q => ?_⟩
      have : (i + 2 + 1) / 2 = (i + 1) / 2 + 1 := by omega
      rw [e q, this, List.take_succ_cons, mget_cons', h3]
      by_cases hq : k = q
      · subst hq
        have hnone : mget (rest.take ((i + 1) / 2)) k = none := by
          rw [mget_none]
          intro v hv
          exact ho.1 (List.mem_map.mpr ⟨_, List.mem_of_mem_take hv, rfl⟩)
        rw [hnone]; simp
      · rw [if_neg hq, if_neg (Ne.symm hq)]

theorem flushStates_length : ∀ (order : List (Nibbles × Option Ptr)) (lower : Store) (d : GoMap (Option Ptr)), lower.Usable →
    (flushStates order lower d).length = 2 * order.length + 1
  | [], _, _, _ => rfl
  | (k, n) :: rest, lower, d, hu => by
    obtain ⟨lower', h1, h2⟩ : ∃ l', flushOne lower k n = some l' ∧ l'.Usable := by
      cases n with
      | none => obtain ⟨l, a, b, -⟩ := Store.del_spec lower hu k; exact ⟨l, a, b⟩
      | some p => obtain ⟨l, a, b, -⟩ := Store.put_spec lower hu k p; exact ⟨l, a, b⟩
    rw [flushStates, h1]
    simp only [List.length_cons, flushStates_length rest lower' (mdel d k) h2]
    omega

/-- `GetEntry` looks at one node only. -/
theorem getEntry_giveUp {w : World} {l : Store} {b : Addr} (h : l.get (keyNibs b) = w.store.get (keyNibs b)) :
    getEntry b (giveUp l w) = (getEntry b w).map fun r => (r.1, giveUp l w) := by
  have hst : (giveUp l w).store.get (keyNibs b) = w.store.get (keyNibs b) := h
  simp only [getEntry, TM.bind_eq, getNode, hst]
  cases hs : w.store.get (keyNibs b) with
  | none => rfl
  | some p =>
    simp only [TM.bind_eq, deref]
    have hh : (giveUp l w).heap p = w.heap p := rfl
    rw [hh]
    cases w.heap p <;> rfl

/-- What the entries written so far make of a mapping. -/
def written (order : List (Nibbles × Option Ptr)) (M M' : Spec.Mapping) : Spec.Mapping :=
  fun b => if Spec.nibbles b ∈ order.map (·.1) then M' b else M b

/-- Everything about the states of a `Flush`. -/
theorem midFlush_spec {w : World} {M : Spec.Mapping} (I : TreeInv H w M) (puts : List (Addr × Bytes)) :
    ∃ w' d, runPuts H puts (onOverlay w) = some w' ∧ w'.store = .overlay w.store (some d) ∧
      TreeInv H w' (after M puts) ∧ w.store.Usable ∧ NodupKeys d ∧
      (∀ order, order.Perm d → ∀ i s, (flushStates order w.store d)[i]? = some s → ∃ l' d', s = .overlay l' (some d') ∧
        ∀ b, getEntry b (giveUp l' w') = some (let v := written (order.take ((i + 1) / 2)) M (after M puts) b
          if v = [] then none else some v, giveUp l' w')) ∧
      ∀ b, Spec.nibbles b ∉ d.map (·.1) → after M puts b = M b := by
  obtain ⟨w', d, h1, h2, I', h3, -, -⟩ := giveUp_spec I puts
  have hu := I'.wf.usable
  rw [h2] at hu
  obtain ⟨hu1, d', rfl, hu2⟩ := hu
  refine ⟨w', d', h1, h2, I', hu1, hu2, ?_, ?_⟩
  · intro order hp i s hs
    have hn : NodupKeys order := (hp.map (fun e : Nibbles × Option Ptr => e.1)).nodup_iff.mpr hu2
    obtain ⟨l', d1, rfl, hl⟩ := flushStates_lower order w.store d' hu1 hn i s hs
    refine ⟨l', d1, rfl, fun b => ?_⟩
    unfold written
    by_cases hb : Spec.nibbles b ∈ (order.take ((i + 1) / 2)).map (·.1)
    · rw [if_pos hb]
      obtain ⟨⟨k, n⟩, he, hk⟩ := List.mem_map.mp hb
      simp only at hk
      rw [← keyNibs_eq] at hk
      subst hk
      have hnt : NodupKeys (order.take ((i + 1) / 2)) := by
        unfold NodupKeys at hn ⊢
        rw [List.map_take]
        exact hn.sublist (List.take_sublist _ _)
      have g1 : mget (order.take ((i + 1) / 2)) (keyNibs b) = some n := (mget_nodup hnt).mpr he
      have g2 : mget d' (keyNibs b) = some n := (mget_nodup hu2).mpr (hp.mem_iff.mp (List.mem_of_mem_take he))
      rw [getEntry_giveUp (w := w') (by rw [hl, g1, h2, overlay_get, g2]), getEntry_spec I' b]
      rfl
    · rw [if_neg hb]
      have g1 : mget (order.take ((i + 1) / 2)) (keyNibs b) = none := by
        rw [mget_none]
        intro v hv
        exact hb (List.mem_map.mpr ⟨_, hv, keyNibs_eq b⟩)
      have := getEntry_giveUp (w := giveUp w.store w') (l := l') (b := b) (by rw [hl, g1]; rfl)
      rw [h3 b] at this
      exact this
  · intro b hb
    have g1 : mget d' (keyNibs b) = none := by
      rw [mget_none]
      intro v hv
      exact hb (List.mem_map.mpr ⟨_, hv, keyNibs_eq b⟩)
    have := getEntry_giveUp (w := w') (l := w.store) (b := b) (by rw [h2, overlay_get, g1]; rfl)
    rw [h3 b, getEntry_spec I' b] at this
    simp only [Option.map_some, Option.some.injEq, Prod.mk.injEq, and_true] at this
    by_cases e1 : M b = [] <;> by_cases e2 : after M puts b = [] <;> simp [e1, e2] at this ⊢
    exact this.symm

/-- C143. Puts are made on an overlay over the store of a tree, and `Flush` writes them down, visiting the entries in any order.
In the `i`-th state of the flush, the tree over the lower store answers every `GetEntry`: with the new entry if its node is among
the first `(i + 1) / 2`, with the old one otherwise. So every entry changes at one moment, and only once. -/
theorem C143_reads_partial {w : World} {M : Spec.Mapping} (hr : Reach H w M) (puts : List (Addr × Bytes)) :
    ∃ w' d, runPuts H puts (onOverlay w) = some w' ∧ w'.store = .overlay w.store (some d) ∧
      ∀ order, order.Perm d → ∀ i s, (flushStates order w.store d)[i]? = some s → ∃ l' d', s = .overlay l' (some d') ∧
        ∀ b, getEntry b (giveUp l' w') = some
          (let v := if Spec.nibbles b ∈ (order.take ((i + 1) / 2)).map (·.1)
            then puts.foldl (fun M e => Spec.set M e.1 e.2) M b else M b
          if v = [] then none else some v, giveUp l' w') := by
  obtain ⟨w', d, h1, h2, -, -, -, h3, -⟩ := midFlush_spec hr.inv puts
  exact ⟨w', d, h1, h2, h3⟩

/-- An order of a list in which the elements of a set come first. -/
theorem perm_first {α} (p : α → Bool) (l : List α) : (l.filter p ++ l.filter fun x => !p x).Perm l := by
  induction l with
  | nil => exact .refl _
  | cons a l ih =>
    cases h : p a
    · simp only [List.filter_cons, h, Bool.not_false, if_true, Bool.false_eq_true, if_false]
      exact List.perm_middle.trans (ih.cons a)
    · simp only [List.filter_cons, h, Bool.not_true, if_true, Bool.false_eq_true, if_false]
      exact ih.cons a

theorem any_subset {w : World} {M : Spec.Mapping} (I : TreeInv H w M) (puts : List (Addr × Bytes)) (S : Addr → Bool) :
    ∃ w' d, runPuts H puts (onOverlay w) = some w' ∧ w'.store = .overlay w.store (some d) ∧
      ∃ order l' d', order.Perm d ∧ Store.overlay l' (some d') ∈ flushStates order w.store d ∧
        ∀ b, getEntry b (giveUp l' w') = some (let v := if S b then after M puts b else M b
          if v = [] then none else some v, giveUp l' w') := by
  classical
  obtain ⟨w', d, h1, h2, -, hu, hd, h3, h4⟩ := midFlush_spec I puts
  let p : Nibbles × Option Ptr → Bool := fun e => decide (∃ b, Spec.nibbles b = e.1 ∧ S b = true)
  let order := d.filter p ++ d.filter fun e => !p e
  have hp : order.Perm d := perm_first p d
  have hlen : 2 * (d.filter p).length < (flushStates order w.store d).length := by
    rw [flushStates_length _ _ _ hu]
    have : (d.filter p).length ≤ order.length := by simp [order]
    omega
  obtain ⟨l', d', hs, hl⟩ := h3 order hp (2 * (d.filter p).length) _ (List.getElem?_eq_getElem hlen)
  refine ⟨w', d, h1, h2, order, l', d', hp, hs ▸ List.getElem_mem hlen, fun b => ?_⟩
  have ht : order.take ((2 * (d.filter p).length + 1) / 2) = d.filter p := by
    rw [show (2 * (d.filter p).length + 1) / 2 = (d.filter p).length by omega]
    exact List.take_left
  rw [hl b, ht]
  have : written (d.filter p) M (after M puts) b = if S b = true then after M puts b else M b := by
    unfold written
    by_cases hb : Spec.nibbles b ∈ d.map (·.1)
    · obtain ⟨e, he, hk⟩ := List.mem_map.mp hb
      by_cases hS : S b = true
      · rw [if_pos hS, if_pos]
        exact List.mem_map.mpr ⟨e, List.mem_filter.mpr ⟨he, decide_eq_true ⟨b, hk.symm, hS⟩⟩, hk⟩
      · rw [if_neg hS, if_neg]
        intro h
        obtain ⟨e', he', hk'⟩ := List.mem_map.mp h
        obtain ⟨b', hb', hS'⟩ := of_decide_eq_true (List.mem_filter.mp he').2
        rw [hk', ← keyNibs_eq, ← keyNibs_eq] at hb'
        exact hS (keyNibs_inj hb' ▸ hS')
    · have hno : Spec.nibbles b ∉ (d.filter p).map (·.1) := fun h => by
        obtain ⟨e, he, hk⟩ := List.mem_map.mp h
        exact hb (List.mem_map.mpr ⟨e, (List.mem_filter.mp he).1, hk⟩)
      rw [if_neg hno, h4 b hb]; simp
  rw [this]

/-- C143 is false of several entries together, as much as it could be: whatever the puts and whatever set of keys, there are an
order of visiting the entries and a moment in which the tree over the lower store shows the new entries for exactly the keys of
the set, and the old ones for all others. -/
theorem C143_any_subset_violated {w : World} {M : Spec.Mapping} (hr : Reach H w M) (puts : List (Addr × Bytes)) (S : Addr → Bool) :
    ∃ w' d, runPuts H puts (onOverlay w) = some w' ∧ w'.store = .overlay w.store (some d) ∧
      ∃ order l' d', order.Perm d ∧ Store.overlay l' (some d') ∈ flushStates order w.store d ∧
        ∀ b, getEntry b (giveUp l' w') = some
          (let v := if S b then puts.foldl (fun M e => Spec.set M e.1 e.2) M b else M b
          if v = [] then none else some v, giveUp l' w') :=
  any_subset hr.inv puts S

/-! ## Further puts on the lower store -/

theorem runPuts_loose : ∀ (puts : List (Addr × Bytes)) {w w' : World} {M : Spec.Mapping}, Sound w → Leafy w → Shows w M →
    runPuts H puts w = some w' → Sound w' ∧ Leafy w' ∧ Shows w' (after M puts) ∧ Older w w'
  | [], w, w', M, S, L, V, h => by cases h; exact ⟨S, L, V, Nat.le_refl _, fun _ _ _ _ h => h⟩
  | (a, v) :: puts, w, w', M, S, L, V, h => by
    simp only [runPuts] at h
    cases hp : putEntry H a v w with
    | none => rw [hp] at h; cases h
    | some r =>
      rw [hp] at h
      obtain ⟨-, S1, L1, V1, O1⟩ := any_put S L V hp
      obtain ⟨S2, L2, V2, O2⟩ := runPuts_loose puts S1 L1 V1 h
      exact ⟨S2, L2, V2, O1.trans O2⟩

/-- What is left of the invariant in the lower store. -/
theorem midFlush_loose {w w' : World} {M : Spec.Mapping} (I : TreeInv H w M) (S0 : Sound w) {puts : List (Addr × Bytes)}
    (h1 : runPuts H puts (onOverlay w) = some w') {d : GoMap (Option Ptr)} (h2 : w'.store = .overlay w.store (some d))
    {order : List (Nibbles × Option Ptr)} (hp : order.Perm d) {i : Nat} {l' : Store} {d' : GoMap (Option Ptr)}
    (hs : (flushStates order w.store d)[i]? = some (.overlay l' (some d'))) : Sound (giveUp l' w') ∧ Leafy (giveUp l' w') := by
  have I0 : TreeInv H (onOverlay w) M := push_inv I
  obtain ⟨S', L', -, O⟩ := runPuts_loose puts (M := M) ⟨I0.wf.usable, S0.short⟩ (inv_leafy I0) (inv_shows I0) h1
  have hu := S'.usable
  rw [h2] at hu
  obtain ⟨hu1, d0, h0, hu2⟩ := hu
  obtain rfl := Option.some.inj h0
  have hn : NodupKeys order := (hp.map (fun e : Nibbles × Option Ptr => e.1)).nodup_iff.mpr hu2
  obtain ⟨⟨u1, -⟩, -, -⟩ := flushStates_spec order w.store d hu1 hu2 hn (fun e he => hp.mem_iff.mp he) _ (List.mem_of_getElem? hs)
  obtain ⟨l1, d1, e1, hl⟩ := flushStates_lower order w.store d hu1 hn i _ hs
  cases e1
  refine ⟨⟨u1, S'.short⟩, fun k p hk hg => ?_⟩
  have hg' : l'.get k = some p := hg
  rw [hl k] at hg'
  cases hm : mget (order.take ((i + 1) / 2)) k with
  | some x =>
    rw [hm] at hg'
    have hnt : NodupKeys (order.take ((i + 1) / 2)) := by
      unfold NodupKeys at hn ⊢
      rw [List.map_take]
      exact hn.sublist (List.take_sublist _ _)
    have g2 : mget d k = some x := (mget_nodup hu2).mpr (hp.mem_iff.mp (List.mem_of_mem_take ((mget_nodup hnt).mp hm)))
    refine L' k p hk ?_
    rw [h2, overlay_get, g2]
    exact hg'
  | none =>
    rw [hm] at hg'
    obtain ⟨a1, l, v, a2⟩ := inv_leafy I k p hk hg'
    exact ⟨Nat.lt_of_lt_of_le a1 O.next, l, v, O.leaf p l v a1 a2⟩

/-- C143. Whoever puts further entries on the tree over the lower store, while the overlay is being written down or after it was
left half written, builds on the mixture: as long as no put panics, every entry is the one put last, and else the new or the old
one as before. -/
theorem C143_puts_partial {w : World} {M : Spec.Mapping} (hr : Reach H w M) (puts : List (Addr × Bytes)) :
    ∃ w' d, runPuts H puts (onOverlay w) = some w' ∧ w'.store = .overlay w.store (some d) ∧
      ∀ order, order.Perm d → ∀ i l' d', (flushStates order w.store d)[i]? = some (.overlay l' (some d')) →
        ∀ later w2, runPuts H later (giveUp l' w') = some w2 → ∀ b, ∃ x, getEntry b w2 = some (x, w2) ∧
          x.getD [] = later.foldl (fun M e => Spec.set M e.1 e.2)
            (fun b => if Spec.nibbles b ∈ (order.take ((i + 1) / 2)).map (·.1)
              then puts.foldl (fun M e => Spec.set M e.1 e.2) M b else M b) b := by
  obtain ⟨w', d, h1, h2, -, -, -, h3, -⟩ := midFlush_spec hr.inv puts
  refine ⟨w', d, h1, h2, fun order hp i l' d' hs later w2 hl => ?_⟩
  obtain ⟨S, L⟩ := midFlush_loose hr.inv ⟨hr.inv.wf.usable, reach_short hr⟩ h1 h2 hp hs
  obtain ⟨l1, d1, e1, h4⟩ := h3 order hp i _ hs
  cases e1
  have V : Shows (giveUp l' w') (written (order.take ((i + 1) / 2)) M (after M puts)) := fun b =>
    ⟨_, h4 b, by simp only; split <;> simp_all⟩
  exact (runPuts_loose later S L V hl).2.2.1

/-- C143 is false of puts in one more way: they can panic. Here the flush of one entry has written nothing yet. -/
theorem C143_panics_violated (a b : Addr) (v u : Bytes) (hv : v ≠ []) (hu : u ≠ []) (hab : a ≠ b)
    (hf : (Spec.nibbles a).head? = (Spec.nibbles b).head?) : ∃ c w' d l' d', putEntry H a v (onOverlay newWorld) = some (c, w') ∧
      w'.store = .overlay newWorld.store (some d) ∧ Store.overlay l' (some d') ∈ flushStates d newWorld.store d ∧
      putEntry H b u (giveUp l' w') = none := by
  obtain ⟨c, w', h1, h2⟩ := C129_panics_violated (H := H) a b v u hv hu hab hf
  obtain ⟨w1, d, e1, e2, -⟩ := midFlush_spec (H := H) (newWorld_inv (H := H)) [(a, v)]
  simp only [runPuts, h1, Option.some.injEq] at e1
  subst e1
  refine ⟨c, w', d, newWorld.store, d, h1, e2, ?_, h2⟩
  cases d with
  | nil => simp [flushStates]
  | cons e d => obtain ⟨k, n⟩ := e; simp [flushStates]

/-- A tree to which the theorems apply, and puts that change it. -/
example (a : Addr) (v : Bytes) (hv : v ≠ []) : Reach H newWorld (fun _ => []) ∧
    [(a, v)].foldl (fun M e => Spec.set M e.1 e.2) (fun _ => []) a ≠ [] := by
  refine ⟨Reach.fresh, ?_⟩
  simpa [Spec.set] using hv

end Nimiq.Tree
