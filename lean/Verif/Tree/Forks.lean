import Verif.Tree.Discard
/-!
# C141: several overlays over one store

Two candidates for the next block are tried on two overlays over the store of the accounts. The overlays share branch objects
with the store and so with each other; what one tree writes into them the other finds there. So every tree but the first is
used on nodes that need not fit together. First: what a put does on a tree of any shape.
-/
namespace Nimiq.Tree

variable {H : Bytes → Hash32} {w w' w'' : World}

/-! ## A put on a tree of any shape -/

/-- A store that can be used, and no branch object that is labelled like a leaf. Nothing else is known of the objects. -/
structure Sound (w : World) : Prop where
  usable : w.store.Usable
  short : ∀ p k ch, w.heap p = .branch k ch → k.length ≠ 40

/-- What happens to objects: leaves never change. -/
structure Older (w w' : World) : Prop where
  next : w.next ≤ w'.next
  leaf : ∀ p k v, p < w.next → w.heap p = .leaf k v → w'.heap p = .leaf k v

/-- A step that stores or removes no leaf. -/
structure Quiet (w w' : World) : Prop extends Older w w' where
  sound : Sound w'
  get : ∀ k, k.length = 40 → w'.store.get k = w.store.get k

/-- A step that stores the leaf `q` with value `v`, or removes it if `v` is empty. -/
structure Wrote (q : Nibbles) (v : Bytes) (w w' : World) : Prop extends Older w w' where
  sound : Sound w'
  get : ∀ k, k.length = 40 → k ≠ q → w'.store.get k = w.store.get k
  own : (v = [] ∧ w'.store.get q = none) ∨ ∃ p, w'.store.get q = some p ∧ p < w'.next ∧ w'.heap p = .leaf q v

theorem Older.trans (h : Older w w') (h' : Older w' w'') : Older w w'' :=
  ⟨Nat.le_trans h.next h'.next, fun p k v hp hl => h'.leaf p k v (Nat.lt_of_lt_of_le hp h.next) (h.leaf p k v hp hl)⟩

theorem Quiet.refl (S : Sound w) : Quiet w w := ⟨⟨Nat.le_refl _, fun _ _ _ _ h => h⟩, S, fun _ _ => rfl⟩

theorem Quiet.trans (h : Quiet w w') (h' : Quiet w' w'') : Quiet w w'' :=
  ⟨h.toOlder.trans h'.toOlder, h'.sound, fun k hk => (h'.get k hk).trans (h.get k hk)⟩

theorem Wrote.quiet {q v} (h : Wrote q v w w') (hq : q.length = 40) (h' : Quiet w' w'') : Wrote q v w w'' := by
  refine ⟨h.toOlder.trans h'.toOlder, h'.sound, fun k hk hn => (h'.get k hk).trans (h.get k hk hn), ?_⟩
  rw [h'.get q hq]
  rcases h.own with h1 | ⟨p, h1, h2, h3⟩
  · exact .inl h1
  · exact .inr ⟨p, h1, Nat.lt_of_lt_of_le h2 h'.next, h'.leaf p q v h2 h3⟩

theorem Quiet.wrote {q v} (h : Quiet w w') (h' : Wrote q v w' w'') : Wrote q v w w'' :=
  ⟨h.toOlder.trans h'.toOlder, h'.sound, fun k hk hn => (h'.get k hk hn).trans (h.get k hk), h'.own⟩

theorem quiet_write (S : Sound w) {p : Ptr} {k : Nibbles} {ch ch' : Nib → Child} {u} (hb : w.heap p = .branch k ch)
    (h : write p (.branch k ch') w = some (u, w')) : Quiet w w' := by
  simp only [Tree.write, Option.some.injEq, Prod.mk.injEq] at h
  obtain ⟨-, rfl⟩ := h
  refine ⟨⟨Nat.le_refl _, ?_⟩, ⟨S.usable, ?_⟩, fun _ _ => rfl⟩
  · intro q j v _ hv
    show (if q = p then _ else w.heap q) = _
    rw [if_neg, hv]
    rintro rfl; rw [hb] at hv; cases hv
  · intro q j c hc
    have hc : (if q = p then NodeObj.branch k ch' else w.heap q) = .branch j c := hc
    by_cases h : q = p
    · rw [if_pos h] at hc; cases hc; exact S.short p k ch hb
    · rw [if_neg h] at hc; exact S.short q j c hc

theorem quiet_alloc (S : Sound w) {o : NodeObj} {p} (ho : ∀ k ch, o = .branch k ch → k.length ≠ 40)
    (h : alloc o w = some (p, w')) : Quiet w w' ∧ p < w'.next ∧ w'.heap p = o := by
  simp only [Tree.alloc, Option.some.injEq, Prod.mk.injEq] at h
  obtain ⟨rfl, rfl⟩ := h
  refine ⟨⟨⟨Nat.le_succ _, ?_⟩, ⟨S.usable, ?_⟩, fun _ _ => rfl⟩, Nat.lt_succ_self _, by simp⟩
  · intro q j v hq hv
    show (if q = w.next then o else w.heap q) = _
    rw [if_neg (Nat.ne_of_lt hq), hv]
  · intro q j c hc
    have hc : (if q = w.next then o else w.heap q) = .branch j c := hc
    by_cases h : q = w.next
    · rw [if_pos h] at hc; exact ho j c hc
    · rw [if_neg h] at hc; exact S.short q j c hc

theorem quiet_put (S : Sound w) {p : Ptr} {k : Nibbles} {u} (hk : k.length ≠ 40) (h : putNode k p w = some (u, w')) :
    Quiet w w' ∧ w'.heap = w.heap := by
  obtain ⟨s, hs, hu, hg⟩ := w.store.put_spec S.usable k p
  simp only [putNode, hs, Option.map_some, Option.some.injEq, Prod.mk.injEq] at h
  obtain ⟨-, rfl⟩ := h
  refine ⟨⟨⟨Nat.le_refl _, fun _ _ _ _ h => h⟩, ⟨hu, S.short⟩, fun j hj => ?_⟩, rfl⟩
  show s.get j = _
  rw [hg, if_neg]
  rintro rfl; exact hk hj

theorem quiet_del (S : Sound w) {k : Nibbles} {u} (hk : k.length ≠ 40) (h : delNode k w = some (u, w')) : Quiet w w' := by
  obtain ⟨s, hs, hu, hg⟩ := w.store.del_spec S.usable k
  simp only [delNode, hs, Option.map_some, Option.some.injEq, Prod.mk.injEq] at h
  obtain ⟨-, rfl⟩ := h
  refine ⟨⟨Nat.le_refl _, fun _ _ _ _ h => h⟩, ⟨hu, S.short⟩, fun j hj => ?_⟩
  show s.get j = _
  rw [hg, if_neg]
  rintro rfl; exact hk hj

theorem wrote_put (S : Sound w) {p : Ptr} {q : Nibbles} {v : Bytes} {u} (hp : p < w.next) (hl : w.heap p = .leaf q v)
    (h : putNode q p w = some (u, w')) : Wrote q v w w' ∧ w'.heap = w.heap := by
  obtain ⟨s, hs, hu, hg⟩ := w.store.put_spec S.usable q p
  simp only [putNode, hs, Option.map_some, Option.some.injEq, Prod.mk.injEq] at h
  obtain ⟨-, rfl⟩ := h
  refine ⟨⟨⟨Nat.le_refl _, fun _ _ _ _ h => h⟩, ⟨hu, S.short⟩, fun j _ hj => ?_, .inr ⟨p, ?_, hp, hl⟩⟩, rfl⟩
  · show s.get j = _
    rw [hg, if_neg hj]
  · show s.get q = _
    rw [hg, if_pos rfl]

theorem wrote_del (S : Sound w) {q : Nibbles} {u} (h : delNode q w = some (u, w')) : Wrote q [] w w' := by
  obtain ⟨s, hs, hu, hg⟩ := w.store.del_spec S.usable q
  simp only [delNode, hs, Option.map_some, Option.some.injEq, Prod.mk.injEq] at h
  obtain ⟨-, rfl⟩ := h
  refine ⟨⟨Nat.le_refl _, fun _ _ _ _ h => h⟩, ⟨hu, S.short⟩, fun j _ hj => ?_, .inl ⟨rfl, ?_⟩⟩
  · show s.get j = _
    rw [hg, if_neg hj]
  · show s.get q = _
    rw [hg, if_pos rfl]

theorem quiet_invalidate : ∀ (path : List Ptr) (cur : Nibbles) {w w' : World} {r}, Sound w →
    invalidatePath cur path w = some (r, w') → Quiet w w'
  | [], _, w, w', r, S, h => by obtain ⟨-, rfl⟩ := tpure_inv h; exact .refl S
  | p :: path, cur, w, w', r, S, h => by
    obtain ⟨⟨pfx, ch⟩, w1, h1, h2⟩ := tbind_inv h
    obtain ⟨rfl, hb⟩ := tbranch_inv h1
    obtain ⟨s, w2, h3, h4⟩ := tbind_inv h2
    obtain ⟨rfl, -⟩ := tslice_inv h3
    obtain ⟨c, w3, h5, h6⟩ := tbind_inv h4
    obtain ⟨rfl, i, t, -, rfl⟩ := tchild_inv h5
    obtain ⟨_, w4, h7, h8⟩ := tbind_inv h6
    have Q := quiet_write S hb h7
    exact Q.trans (quiet_invalidate path _ Q.sound h8)

theorem quiet_prune : ∀ (path : List Ptr) (cur : Nibbles) {w w' : World} {r}, Sound w →
    prune cur path w = some (r, w') → Quiet w w'
  | [], _, w, w', r, S, h => by obtain ⟨-, rfl⟩ := tpure_inv h; exact .refl S
  | p :: path, cur, w, w', r, S, h => by
    obtain ⟨⟨pfx, ch⟩, w1, h1, h2⟩ := tbind_inv h
    obtain ⟨rfl, hb⟩ := tbranch_inv h1
    have hs := S.short _ _ _ hb
    cases hd : cur.drop pfx.length with
    | nil => simp [hd, TM.panic] at h2
    | cons i t =>
      simp only [hd] at h2
      obtain ⟨_, w2, h3, h4⟩ := tbind_inv h2
      have Q2 := quiet_write S hb h3
      have put : ∀ {c : Nibbles}, (putNode pfx p >>= fun _ => invalidatePath c path) w2 = some (r, w') → Quiet w1 w' := by
        intro c h
        obtain ⟨_, w3, h5, h6⟩ := tbind_inv h
        have Q3 := (quiet_put Q2.sound hs h5).1
        exact (Q2.trans Q3).trans (quiet_invalidate path _ Q3.sound h6)
      revert h4
      generalize existing (setChild ch i { ch i with exist := false }) = ex
      intro h4
      rcases ex with _ | ⟨c, _ | ⟨c', cs⟩⟩
      · simp only at h4
        split at h4
        · exact put h4
        · exact Q2.trans (quiet_prune path _ Q2.sound h4)
      · simp only at h4
        split at h4
        · obtain ⟨_, w3, h5, h6⟩ := tbind_inv h4
          have Q3 := quiet_del Q2.sound hs h5
          exact (Q2.trans Q3).trans (quiet_invalidate path _ Q3.sound h6)
        · exact put h4
      · exact put h4

theorem wrote_leaf (S : Sound w) {q : Nibbles} {v : Bytes} {p} {u} {w2 : World} (h1 : alloc (.leaf q v) w = some (p, w'))
    (h2 : putNode q p w' = some (u, w2)) : Wrote q v w w2 ∧ w2.heap = w'.heap := by
  obtain ⟨Q, hp, hl⟩ := quiet_alloc S (o := .leaf q v) (by simp) h1
  obtain ⟨W, hh⟩ := wrote_put Q.sound hp hl h2
  exact ⟨Q.wrote W, hh⟩

theorem update_wrote : ∀ (fuel : Nat) (np : Nibbles) {q : Nibbles} {v : Bytes} (path : List Ptr) {w w' : World} {r}, Sound w →
    q.length = 40 → update fuel np q v path w = some (r, w') → Wrote q v w w'
  | 0, _, _, _, _, w, w', r, _, _, h => by simp [Tree.update, TM.panic] at h
  | fuel + 1, np, q, v, path, w, w', r, S, hq, h => by
    rw [Tree.update] at h
    split at h
    · obtain ⟨p, w1, h1, h2⟩ := tbind_inv h
      obtain ⟨_, w2, h3, h4⟩ := tbind_inv h2
      obtain ⟨W, -⟩ := wrote_leaf S h1 h3
      obtain ⟨s1, w3, h5, h6⟩ := tbind_inv h4
      obtain ⟨rfl, -⟩ := tslice_inv h5
      obtain ⟨c1, w4, h7, h8⟩ := tbind_inv h6
      obtain ⟨rfl, i1, t1, -, rfl⟩ := tchild_inv h7
      obtain ⟨s2, w5, h9, h10⟩ := tbind_inv h8
      obtain ⟨rfl, hs2⟩ := tslice_inv h9
      obtain ⟨c2, w6, h11, h12⟩ := tbind_inv h10
      obtain ⟨rfl, i2, t2, hi2, rfl⟩ := tchild_inv h11
      obtain ⟨p7, w7, h13, h14⟩ := tbind_inv h12
      have hlen : (commonPrefix np q).length ≠ 40 := by
        intro e
        rw [hs2, List.drop_eq_nil_of_le (by omega)] at hi2
        cases hi2
      obtain ⟨Q7, -, -⟩ := quiet_alloc W.sound (o := .branch _ _) (by intro k ch h; cases h; exact hlen) h13
      obtain ⟨_, w8, h15, h16⟩ := tbind_inv h14
      have Q8 := (quiet_put Q7.sound hlen h15).1
      exact W.quiet hq ((Q7.trans Q8).trans (quiet_invalidate path _ Q8.sound h16))
    · split at h
      · rename_i hnp
        subst hnp
        split at h
        · rename_i hv
          obtain ⟨_, w1, h1, h2⟩ := tbind_inv h
          have W := wrote_del S h1
          rw [List.eq_nil_of_length_eq_zero hv]
          exact W.quiet hq (quiet_prune path _ W.sound h2)
        · obtain ⟨p, w1, h1, h2⟩ := tbind_inv h
          obtain ⟨_, w2, h3, h4⟩ := tbind_inv h2
          obtain ⟨W, -⟩ := wrote_leaf S h1 h3
          exact W.quiet hq (quiet_invalidate path _ W.sound h4)
      · obtain ⟨n, w1, h1, h2⟩ := tbind_inv h
        obtain ⟨rfl, hn⟩ := tget_inv h1
        split at h2
        · simp [TM.panic] at h2
        · rename_i node
          obtain ⟨⟨npfx, ch⟩, w2, h3, h4⟩ := tbind_inv h2
          obtain ⟨rfl, hb⟩ := tbranch_inv h3
          cases hd : q.drop npfx.length with
          | nil => simp [hd, TM.panic] at h4
          | cons i t =>
            simp only [hd] at h4
            split at h4
            · exact update_wrote fuel _ (node :: path) S hq h4
            · obtain ⟨p, w3, h5, h6⟩ := tbind_inv h4
              obtain ⟨_, w4, h7, h8⟩ := tbind_inv h6
              obtain ⟨W, -⟩ := wrote_leaf S h5 h7
              obtain ⟨⟨np2, ch2⟩, w5, h9, h10⟩ := tbind_inv h8
              obtain ⟨rfl, hb2⟩ := tbranch_inv h9
              obtain ⟨s, w6, h11, h12⟩ := tbind_inv h10
              obtain ⟨rfl, -⟩ := tslice_inv h11
              obtain ⟨c, w7, h13, h14⟩ := tbind_inv h12
              obtain ⟨rfl, j, t', -, rfl⟩ := tchild_inv h13
              obtain ⟨_, w8, h15, h16⟩ := tbind_inv h14
              have Q8 := quiet_write W.sound hb2 h15
              obtain ⟨_, w9, h17, h18⟩ := tbind_inv h16
              have Q9 := (quiet_put Q8.sound (W.sound.short _ _ _ hb2) h17).1
              exact W.quiet hq ((Q8.trans Q9).trans (quiet_invalidate path _ Q9.sound h18))

theorem quiet_hashLoop {rec : Nibbles → TM Hash32}
    (hrec : ∀ k {w w' : World} {r}, Sound w → rec k w = some (r, w') → Quiet w w')
    (k : Nibbles) (p : Ptr) : ∀ (is : List Nib) {w w' : World} {r}, Sound w →
    Tree.hashLoop rec k p is w = some (r, w') → Quiet w w'
  | [], w, w', r, S, h => by obtain ⟨-, rfl⟩ := tpure_inv h; exact .refl S
  | i :: is, w, w', r, S, h => by
    obtain ⟨⟨pfx, ch⟩, w1, h1, h2⟩ := tbind_inv h
    obtain ⟨rfl, hb⟩ := tbranch_inv h1
    simp only at h2
    split at h2
    · obtain ⟨hh, w2, h3, h4⟩ := tbind_inv h2
      have Q2 := hrec _ S h3
      obtain ⟨⟨pfx2, ch2⟩, w3, h5, h6⟩ := tbind_inv h4
      obtain ⟨rfl, hb2⟩ := tbranch_inv h5
      obtain ⟨_, w4, h7, h8⟩ := tbind_inv h6
      have Q4 := quiet_write Q2.sound hb2 h7
      exact (Q2.trans Q4).trans (quiet_hashLoop hrec k p is Q4.sound h8)
    · exact quiet_hashLoop hrec k p is S h2

theorem quiet_hashes : ∀ (fuel : Nat) (k : Nibbles) {w w' : World} {r}, Sound w →
    updateHashes H fuel k w = some (r, w') → Quiet w w'
  | 0, _, w, w', r, _, h => by simp [updateHashes, TM.panic] at h
  | fuel + 1, k, w, w', r, S, h => by
    rw [updateHashes] at h
    obtain ⟨n, w1, h1, h2⟩ := tbind_inv h
    obtain ⟨rfl, hn⟩ := tget_inv h1
    split at h2
    · simp [TM.panic] at h2
    · rename_i p
      obtain ⟨o, w2, h3, h4⟩ := tbind_inv h2
      simp only [deref, Option.some.injEq, Prod.mk.injEq] at h3
      obtain ⟨rfl, rfl⟩ := h3
      cases ho : w1.heap p with
      | leaf lp lv => simp only [ho] at h4; obtain ⟨-, rfl⟩ := tpure_inv h4; exact .refl S
      | branch bp bch =>
        simp only [ho] at h4
        obtain ⟨_, w3, h5, h6⟩ := tbind_inv h4
        have Q3 := quiet_hashLoop (fun k => quiet_hashes fuel k) k _ _ S h5
        obtain ⟨⟨np, ch⟩, w4, h7, h8⟩ := tbind_inv h6
        obtain ⟨rfl, hb⟩ := tbranch_inv h7
        obtain ⟨_, w5, h9, h10⟩ := tbind_inv h8
        obtain ⟨-, rfl⟩ := tpure_inv h10
        exact Q3.trans (quiet_put Q3.sound (Q3.sound.short _ _ _ hb) h9).1

/-- Every stored leaf is what `GetEntry` expects. -/
def Leafy (w : World) : Prop := ∀ k p, k.length = 40 → w.store.get k = some p → p < w.next ∧ ∃ l v, w.heap p = .leaf l v

/-- What `GetEntry` answers; nil and empty are the same. -/
def Shows (w : World) (M : Spec.Mapping) : Prop := ∀ a, ∃ x, getEntry a w = some (x, w) ∧ x.getD [] = M a

theorem getEntry_at (w : World) (a : Addr) : getEntry a w =
    match w.store.get (keyNibs a) with
    | none => some (none, w)
    | some p => match w.heap p with
      | .leaf _ v => some (some v, w)
      | .branch _ _ => none := by
  simp only [getEntry, TM.bind_eq, getNode]
  cases w.store.get (keyNibs a) with
  | none => rfl
  | some p =>
    simp only [TM.bind_eq, deref]
    cases w.heap p <;> rfl

theorem Older.shows (h : Older w w') {M : Spec.Mapping} (L : Leafy w) (S : Shows w M)
    (hg : ∀ k, k.length = 40 → w'.store.get k = w.store.get k) : Leafy w' ∧ Shows w' M := by
  constructor
  · intro k p hk hp
    rw [hg k hk] at hp
    obtain ⟨h1, l, v, h2⟩ := L k p hk hp
    exact ⟨Nat.lt_of_lt_of_le h1 h.next, l, v, h.leaf p l v h1 h2⟩
  · intro a
    obtain ⟨x, h1, h2⟩ := S a
    refine ⟨x, ?_, h2⟩
    rw [getEntry_at] at h1 ⊢
    rw [hg _ (keyNibs_length a)]
    cases hs : w.store.get (keyNibs a) with
    | none => rw [hs] at h1; simp only [Option.some.injEq, Prod.mk.injEq] at h1 ⊢; exact ⟨h1.1, trivial⟩
    | some p =>
      rw [hs] at h1
      simp only at h1 ⊢
      obtain ⟨h3, l, v, h4⟩ := L _ _ (keyNibs_length a) hs
      rw [h4] at h1
      rw [h.leaf p l v h3 h4]
      simp only [Option.some.injEq, Prod.mk.injEq] at h1 ⊢
      exact ⟨h1.1, trivial⟩

theorem Wrote.shows {a : Addr} {v : Bytes} (h : Wrote (keyNibs a) v w w') {M : Spec.Mapping} (L : Leafy w) (S : Shows w M) :
    Leafy w' ∧ Shows w' (Spec.set M a v) := by
  constructor
  · intro k p hk hp
    by_cases e : k = keyNibs a
    · subst e
      rcases h.own with ⟨-, h1⟩ | ⟨p', h1, h2, h3⟩
      · rw [h1] at hp; cases hp
      · rw [h1] at hp; cases hp; exact ⟨h2, _, _, h3⟩
    · rw [h.get k hk e] at hp
      obtain ⟨h1, l, v, h2⟩ := L k p hk hp
      exact ⟨Nat.lt_of_lt_of_le h1 h.next, l, v, h.leaf p l v h1 h2⟩
  · intro b
    by_cases e : b = a
    · subst e
      rw [getEntry_at]
      rcases h.own with ⟨rfl, h1⟩ | ⟨p', h1, h2, h3⟩
      · rw [h1]; exact ⟨none, rfl, by simp [Spec.set]⟩
      · rw [h1]; simp only [h3]; exact ⟨some v, rfl, by simp [Spec.set]⟩
    · obtain ⟨x, h1, h2⟩ := S b
      refine ⟨x, ?_, by rw [h2]; simp [Spec.set, e]⟩
      rw [getEntry_at] at h1 ⊢
      rw [h.get _ (keyNibs_length b) fun e' => e (keyNibs_inj e')]
      cases hs : w.store.get (keyNibs b) with
      | none => rw [hs] at h1; simp only [Option.some.injEq, Prod.mk.injEq] at h1 ⊢; exact ⟨h1.1, trivial⟩
      | some p =>
        rw [hs] at h1
        simp only at h1 ⊢
        obtain ⟨h3, l, v, h4⟩ := L _ _ (keyNibs_length b) hs
        rw [h4] at h1
        rw [h.leaf p l v h3 h4]
        simp only [Option.some.injEq, Prod.mk.injEq] at h1 ⊢
        exact ⟨h1.1, trivial⟩

/-- A put on a tree of any shape panics, or answers right and is seen by `GetEntry`, which otherwise answers as before. -/
theorem any_put (S : Sound w) (L : Leafy w) {M : Spec.Mapping} (hM : Shows w M) {a : Addr} {v : Bytes} {b : Bool}
    (h : putEntry H a v w = some (b, w')) :
    (b = true ↔ M a ≠ v) ∧ Sound w' ∧ Leafy w' ∧ Shows w' (Spec.set M a v) ∧ Older w w' := by
  obtain ⟨c, w1, h1, h2⟩ := tbind_inv h
  obtain ⟨_, w2, h3, h4⟩ := tbind_inv h2
  obtain ⟨rfl, rfl⟩ := tpure_inv h4
  unfold updateEntry at h1
  obtain ⟨n, w3, h5, h6⟩ := tbind_inv h1
  obtain ⟨rfl, hn⟩ := tget_inv h5
  obtain ⟨x, hx, hxM⟩ := hM a
  rw [getEntry_at, hn] at hx
  have same : w1 = w3 → M a = v → Sound w' ∧ Leafy w' ∧ Shows w' (Spec.set M a v) ∧ Older w3 w' := by
    rintro rfl hv
    have Q := quiet_hashes _ _ S h3
    have e : Spec.set M a v = M := by funext d; simp only [Spec.set]; split <;> simp_all
    rw [e]
    obtain ⟨h8, h9⟩ := Q.toOlder.shows L hM Q.get
    exact ⟨Q.sound, h8, h9, Q.toOlder⟩
  have upd : ∀ {x : Bool}, (Tree.update maxDepth [] (keyNibs a) v [] >>= fun _ => (Pure.pure x : TM Bool)) w3 = some (b, w1) →
      b = x ∧ Sound w' ∧ Leafy w' ∧ Shows w' (Spec.set M a v) ∧ Older w3 w' := by
    intro x h
    obtain ⟨_, w4, h7, h8⟩ := tbind_inv h
    obtain ⟨rfl, rfl⟩ := tpure_inv h8
    have W := update_wrote _ _ _ S (keyNibs_length a) h7
    have W' := W.quiet (keyNibs_length a) (quiet_hashes _ _ W.sound h3)
    obtain ⟨h8, h9⟩ := W'.shows L hM
    exact ⟨rfl, W'.sound, h8, h9, W'.toOlder⟩
  split at h6
  · simp only [Option.some.injEq, Prod.mk.injEq] at hx
    obtain ⟨rfl, -⟩ := hx
    simp only [Option.getD_none] at hxM
    split at h6
    · rename_i hv
      obtain ⟨rfl, e⟩ := tpure_inv h6
      have hv : v = [] := List.eq_nil_of_length_eq_zero hv
      exact ⟨by simp [← hxM, hv], same e (by rw [← hxM, hv])⟩
    · rename_i hv
      obtain ⟨rfl, hh⟩ := upd h6
      refine ⟨by simp only [true_iff]; rw [← hxM]; rintro rfl; exact hv rfl, hh⟩
  · obtain ⟨o, w4, h7, h8⟩ := tbind_inv h6
    simp only [deref, Option.some.injEq, Prod.mk.injEq] at h7
    obtain ⟨rfl, rfl⟩ := h7
    rename_i p
    cases ho : w3.heap p with
    | leaf lp lv =>
      simp only [ho, Option.some.injEq, Prod.mk.injEq] at h8 hx
      obtain ⟨rfl, -⟩ := hx
      simp only [Option.getD_some] at hxM
      split at h8
      · rename_i hv
        obtain ⟨rfl, e⟩ := tpure_inv h8
        exact ⟨by simp [← hxM, hv], same e (by rw [← hxM, hv])⟩
      · rename_i hv
        obtain ⟨rfl, hh⟩ := upd h8
        exact ⟨by simp only [true_iff]; rw [← hxM]; exact hv, hh⟩
    | branch bp bch => simp only [ho] at hx; cases hx

/-! ## Overlays -/

/-- A tree whose root leads straight to an entry that is missing from the store. -/
theorem orphan_panics_any {a b : Addr} {u : Bytes} {wg : World} {p0 : Ptr} {ch : Nib → Child} {i : Nib} {t : Nibbles}
    {h : Hash32} (hu : u ≠ []) (hab : a ≠ b) (hf : (Spec.nibbles a).head? = (Spec.nibbles b).head?)
    (hst : wg.store.Usable) (hg0 : wg.store.get [] = some p0) (hgA : wg.store.get (keyNibs a) = none)
    (hgB : wg.store.get (keyNibs b) = none)
    (hnx : p0 < wg.next) (hh0 : wg.heap p0 = .branch [] ch) (hit : keyNibs a = i :: t) (h4 : ch i = ⟨i :: t, h, true⟩)
    (h5 : ∀ j, j ≠ i → ¬ ((ch j).exist = true ∧ (ch j).hash = zeroHash)) : putEntry H b u wg = none := by
  rw [← keyNibs_eq, ← keyNibs_eq, hit] at hf
  obtain ⟨t', hit'⟩ : ∃ t', keyNibs b = i :: t' := by
    cases hb : keyNibs b with
    | nil => exact absurd hb (keyNibs_ne_nil b)
    | cons j t' => rw [hb] at hf; simp only [List.head?_cons, Option.some.injEq] at hf; exact ⟨t', by rw [hf]⟩
  have hne : keyNibs a ≠ keyNibs b := fun e => hab (keyNibs_inj e)
  have hlen : (keyNibs a).length = (keyNibs b).length := by rw [keyNibs_length, keyNibs_length]
  -- where the keys part
  obtain ⟨c1, x, s, y, r, hA, hB, hxy, hcp⟩ : ∃ c1 x s y r, keyNibs a = i :: c1 ++ x :: s ∧ keyNibs b = i :: c1 ++ y :: r ∧
      x ≠ y ∧ commonPrefix (keyNibs a) (keyNibs b) = i :: c1 := by
    obtain ⟨a', b', e1, e2, e3⟩ := commonPrefix_split (keyNibs a) (keyNibs b)
    have hc : commonPrefix (keyNibs a) (keyNibs b) = i :: commonPrefix t t' := by rw [hit, hit']; simp [commonPrefix]
    rw [hc] at e1 e2
    have hl : a'.length = b'.length := by
      have := hlen
      rw [e1, e2, List.length_append, List.length_append] at this
      omega
    rcases e3 with rfl | rfl | ⟨x, s, y, r, rfl, rfl, hxy⟩
    · have := List.eq_nil_of_length_eq_zero (l := b') (by rw [← hl]; rfl)
      subst this; exact absurd (e1.trans e2.symm) hne
    · have := List.eq_nil_of_length_eq_zero (l := a') (by rw [hl]; rfl)
      subst this; exact absurd (e1.trans e2.symm) hne
    · exact ⟨_, x, s, y, r, e1, e2, hxy, hc⟩
  have hcA : i :: c1 ≠ keyNibs a := by rw [hA]; simp
  have hcB : i :: c1 ≠ keyNibs b := by rw [hB]; simp
  have hpre : ¬ prefixOf (keyNibs a) (keyNibs b) = true := by
    rw [prefixOf_iff]
    exact fun h => hne (h.eq_of_length hlen)
  have hul : ¬ u.length = 0 := fun h => hu (List.length_eq_zero_iff.mp h)
  obtain ⟨s1, hs1, hu1, hg1⟩ := wg.store.put_spec hst (keyNibs b) wg.next
  obtain ⟨s2, hs2, -, hg2⟩ := s1.put_spec hu1 (i :: c1) (wg.next + 1)
  let ch2 := setChild (setChild (fun _ => Child.zero) x ⟨x :: s, zeroHash, true⟩) y ⟨y :: r, zeroHash, true⟩
  let wU : World :=
    { heap := fun q => if q = p0 then .branch [] (setChild ch i ⟨i :: c1, zeroHash, true⟩)
        else if q = wg.next + 1 then .branch (i :: c1) ch2 else if q = wg.next then .leaf (keyNibs b) u else wg.heap q,
      next := wg.next + 2, store := s2 }
  have hupd : updateEntry b u wg = some (true, wU) := by
    have hbr0 : ∀ w : World, w.heap p0 = .branch [] ch → asBranch p0 w = some (([], ch), w) := fun w hw => by
      simp [asBranch, TM.bind_eq, deref, hw, Pure.pure, TM.pure]
    simp only [updateEntry, TM.bind_eq, getNode, hgB, if_false, hul, maxDepth]
    rw [update]
    have hpre0 : ¬ ¬ prefixOf ([] : Nibbles) (keyNibs b) = true := by simp [prefixOf]
    rw [if_neg hpre0, if_neg (Ne.symm (keyNibs_ne_nil b))]
    simp only [TM.bind_eq, getNode, hg0, hbr0 wg hh0, List.length_nil, List.drop_zero]
    rw [hit']
    simp only [h4, if_true, List.nil_append]
    rw [← hit, ← hit', update, if_pos hpre]
    simp only [TM.bind_eq, alloc, putNode, hs1, Option.map_some, hcp, sliceFrom, withChild]
    have hlA : (i :: c1).length ≤ (keyNibs a).length := by rw [hA]; simp
    have hlB : (i :: c1).length ≤ (keyNibs b).length := by rw [hB]; simp
    have hdA : (keyNibs a).drop (i :: c1).length = x :: s := by rw [hA, List.drop_left]
    have hdB : (keyNibs b).drop (i :: c1).length = y :: r := by rw [hB, List.drop_left]
    rw [if_pos hlA, hdA, if_pos hlB, hdB]
    have hz : p0 ≠ wg.next := Nat.ne_of_lt hnx
    have hz1 : p0 ≠ wg.next + 1 := Nat.ne_of_lt (Nat.lt_succ_of_lt hnx)
    simp only [Pure.pure, TM.pure, hs2, Option.map_some, invalidatePath, TM.bind_eq]
    rw [hbr0 _ (by simp only [if_neg hz, if_neg hz1]; exact hh0)]
    simp only [sliceFrom, List.length_nil, Nat.zero_le, if_true, List.drop_zero, Pure.pure, TM.pure, withChild, TM.bind_eq, write]
    rfl
  simp only [putEntry, TM.bind_eq, hupd]
  have hgU : ∀ k, wU.store.get k = if k = i :: c1 then some (wg.next + 1) else if k = keyNibs b then some wg.next
      else wg.store.get k := by
    intro k
    show s2.get k = _
    rw [hg2, hg1]
  have hnone : updateHashes H maxDepth [] wU = none := by
    refine missing_child (p0 := p0) (n := wg.next) (i := i) (x := x) (y := y) (c1 := c1) (s := s) (r := r) (u := u)
      (ch := setChild ch i ⟨i :: c1, zeroHash, true⟩) (ch2 := ch2) hxy ?_ ?_ ?_ ?_ ?_ ?_ ?_ ?_ ?_ ?_ ?_ ?_ 61
    · rw [hgU, if_neg (by simp), if_neg (Ne.symm (keyNibs_ne_nil b)), hg0]
    · rw [hgU, if_pos rfl]
    · rw [← hA, hgU, if_neg (Ne.symm hcA), if_neg hne, hgA]
    · rw [← hB, hgU, if_neg (Ne.symm hcB), if_pos rfl]
    · simp only [wU, if_true]
    · rw [← hB]
      simp only [wU]
      rw [if_neg (Nat.ne_of_gt hnx), if_neg (Nat.ne_of_lt (Nat.lt_succ_self _)), if_pos trivial]
    · simp only [wU]
      rw [if_neg (Nat.ne_of_gt (Nat.lt_succ_of_lt hnx)), if_pos trivial]
    · simp [setChild]
    · intro j hj; rw [setChild, if_neg hj]; exact h5 j hj
    · simp [ch2, setChild, hxy]
    · simp [ch2, setChild]
    · intro j hj hj2; simp [ch2, setChild, hj, hj2, Child.zero]
  rw [hnone]

/-- Several trees in one program: the objects are shared, each tree has its store. -/
structure Family where
  heap : Ptr → NodeObj
  next : Ptr
  store : Nat → Store

/-- The tree number `i`. -/
def Family.tree (f : Family) (i : Nat) : World := ⟨f.heap, f.next, f.store i⟩

/-- Trees over new overlays (store_overlay.go:10-29, with their maps made), all over the store of `w`. -/
def overlays (w : World) : Family := ⟨w.heap, w.next, fun _ => .overlay w.store (some [])⟩

/-- tree.go:42-46 `PutEntry` on tree `i` -/
def Family.put (H : Bytes → Hash32) (i : Nat) (a : Addr) (v : Bytes) (f : Family) : Option (Bool × Family) :=
  (putEntry H a v (f.tree i)).map fun r => (r.1, ⟨r.2.heap, r.2.next, fun j => if j = i then r.2.store else f.store j⟩)

/-- tree.go:42-46: calls of `PutEntry` on the trees, one after the other, and what they return; `none` when one panics -/
def Family.run (H : Bytes → Hash32) : List (Nat × Addr × Bytes) → Family → Option (List Bool × Family)
  | [], f => some ([], f)
  | (i, a, v) :: calls, f =>
    match f.put H i a v with
    | none => none
    | some (b, f) => (f.run H calls).map fun r => (b :: r.1, r.2)

/-- What the calls should return: whether the entry of that tree changes. -/
def rightAnswers : List (Nat × Addr × Bytes) → (Nat → Spec.Mapping) → List Bool
  | [], _ => []
  | (i, a, v) :: calls, M => decide (M i a ≠ v) :: rightAnswers calls fun j => if j = i then Spec.set (M i) a v else M j

/-- The puts on tree `i`. -/
def putsOn (i : Nat) (calls : List (Nat × Addr × Bytes)) : List (Addr × Bytes) := (calls.filter (·.1 = i)).map (·.2)

/-- Sound and leafy trees that show what they should. -/
def Family.Fine (f : Family) (M : Nat → Spec.Mapping) : Prop :=
  ∀ i, Sound (f.tree i) ∧ Leafy (f.tree i) ∧ Shows (f.tree i) (M i)

theorem Family.Fine.put {f f' : Family} {M : Nat → Spec.Mapping} (h : f.Fine M) {i : Nat} {a : Addr} {v : Bytes} {b : Bool}
    (hp : f.put H i a v = some (b, f')) :
    b = decide (M i a ≠ v) ∧ f'.Fine fun j => if j = i then Spec.set (M i) a v else M j := by
  unfold Family.put at hp
  cases hq : putEntry H a v (f.tree i) with
  | none => rw [hq] at hp; cases hp
  | some r =>
    obtain ⟨c, w'⟩ := r
    rw [hq] at hp
    simp only [Option.map_some, Option.some.injEq, Prod.mk.injEq] at hp
    obtain ⟨rfl, rfl⟩ := hp
    obtain ⟨S, L, V⟩ := h i
    obtain ⟨h1, h2, h3, h4, h5⟩ := any_put S L V hq
    refine ⟨Bool.eq_iff_iff.mpr (by simp [h1]), fun j => ?_⟩
    by_cases e : j = i
    · subst e
      have e' : Family.tree ⟨w'.heap, w'.next, fun k => if k = j then w'.store else f.store k⟩ j = w' := by
        simp [Family.tree]
      rw [e']; simp only [if_true]; exact ⟨h2, h3, h4⟩
    · obtain ⟨Sj, Lj, Vj⟩ := h j
      have e' : Family.tree ⟨w'.heap, w'.next, fun k => if k = i then w'.store else f.store k⟩ j = ⟨w'.heap, w'.next, f.store j⟩ := by
        simp [Family.tree, e]
      rw [e']; simp only [if_neg e]
      have o : Older (f.tree j) ⟨w'.heap, w'.next, f.store j⟩ := ⟨h5.next, h5.leaf⟩
      obtain ⟨h6, h7⟩ := o.shows Lj Vj fun _ _ => rfl
      exact ⟨⟨Sj.usable, h2.short⟩, h6, h7⟩

theorem Family.Fine.run : ∀ (calls : List (Nat × Addr × Bytes)) {f f' : Family} {M : Nat → Spec.Mapping} {bs}, f.Fine M →
    f.run H calls = some (bs, f') → bs = rightAnswers calls M ∧ f'.Fine fun i => after (M i) (putsOn i calls)
  | [], f, f', M, bs, h, hr => by
    simp only [Family.run, Option.some.injEq, Prod.mk.injEq] at hr
    obtain ⟨rfl, rfl⟩ := hr
    exact ⟨rfl, h⟩
  | (i, a, v) :: calls, f, f', M, bs, h, hr => by
    simp only [Family.run] at hr
    cases hp : f.put H i a v with
    | none => rw [hp] at hr; cases hr
    | some r =>
      obtain ⟨b, f1⟩ := r
      rw [hp] at hr
      simp only at hr
      cases hq : f1.run H calls with
      | none => rw [hq] at hr; cases hr
      | some q =>
        rw [hq] at hr
        simp only [Option.map_some, Option.some.injEq, Prod.mk.injEq] at hr
        obtain ⟨rfl, rfl⟩ := hr
        obtain ⟨h1, h2⟩ := h.put hp
        obtain ⟨h3, h4⟩ := Family.Fine.run calls h2 hq
        refine ⟨by rw [h1, h3]; rfl, ?_⟩
        have e : (fun j => after (M j) (putsOn j ((i, a, v) :: calls))) =
            fun j => after (if j = i then Spec.set (M i) a v else M j) (putsOn j calls) := by
          funext j
          by_cases hj : j = i
          · subst hj; simp [putsOn, after]
          · rw [if_neg hj]; simp [putsOn, Ne.symm hj]
        rw [e]; exact h4

theorem inv_shows {M : Spec.Mapping} (I : TreeInv H w M) : Shows w M := fun a =>
  ⟨_, getEntry_spec I a, by split <;> simp_all⟩

theorem inv_leafy {M : Spec.Mapping} (I : TreeInv H w M) : Leafy w := by
  intro k p hk hp
  obtain ⟨a, rfl⟩ := keyNibs_surj hk
  have h := I.map a
  rw [I.wf.r.heap hp] at h
  refine ⟨I.wf.alloc hp, ?_⟩
  split at h
  · cases h
  · exact ⟨_, _, Option.some.inj h⟩

/-- The labels of all objects ever made. -/
theorem reach_short {M : Spec.Mapping} (h : Reach H w M) : ∀ p k ch, w.heap p = .branch k ch → k.length ≠ 40 := by
  induction h with
  | fresh => intro p k ch h; simp only [newWorld, NodeObj.branch.injEq] at h; rw [← h.1]; decide
  | @put w M a v b w' hr hp ih =>
    have I := hr.inv
    refine (any_put (H := H) (M := M) ⟨I.wf.usable, ih⟩ ?_ ?_ hp).2.1.short
    · exact inv_leafy I
    · exact inv_shows I
  | push _ ih => exact ih
  | flush _ _ _ _ ih => exact ih

theorem newOverlay_get (s : Store) (k : Nibbles) : (Store.overlay s (some [])).get k = s.get k := by simp [Store.get, mget]

theorem overlays_fine {M : Spec.Mapping} (hr : Reach H w M) : (overlays w).Fine fun _ => M := fun _ =>
  have hr' : Reach H (onOverlay w) M := hr.push
  ⟨⟨hr'.inv.wf.usable, reach_short hr'⟩, inv_leafy hr'.inv, inv_shows hr'.inv⟩

/-- C141, the part that holds of the code: candidates tried on any number of overlays over one store, their puts interleaved in
any way. As long as no call panics, every call returns the right answer, and every tree shows what was put on it and nothing
that was put on another. Missing: that no call panics, and the hash. Both are false of the code, as the next two theorems say. -/
theorem C141_reads_partial {M : Spec.Mapping} (hr : Reach H w M) {calls : List (Nat × Addr × Bytes)} {bs : List Bool}
    {f : Family} (h : (overlays w).run H calls = some (bs, f)) :
    bs = rightAnswers calls (fun _ => M) ∧ ∀ i a, ∃ x, getEntry a (f.tree i) = some (x, f.tree i) ∧
      x.getD [] = (putsOn i calls).foldl (fun M e => Spec.set M e.1 e.2) M a := by
  obtain ⟨h1, h2⟩ := (overlays_fine hr).run calls h
  exact ⟨h1, fun i => (h2 i).2.2⟩

theorem run_one {f : Family} {i : Nat} : ∀ (puts : List (Addr × Bytes)) {g : Family} {w' : World},
    g.store = (fun j => if j = i then (g.tree i).store else f.store j) → runPuts H puts (g.tree i) = some w' →
    ∃ bs, g.run H (puts.map (i, ·)) = some (bs, ⟨w'.heap, w'.next, fun j => if j = i then w'.store else f.store j⟩)
  | [], g, w', hs, h => by
    simp only [runPuts, Option.some.injEq] at h
    subst h
    refine ⟨[], ?_⟩
    simp only [List.map_nil, Family.run]
    congr 2
    cases g; simp only [Family.tree] at hs ⊢; congr
  | (a, v) :: puts, g, w', hs, h => by
    simp only [runPuts] at h
    cases hp : putEntry H a v (g.tree i) with
    | none => rw [hp] at h; cases h
    | some r =>
      obtain ⟨b, w1⟩ := r
      rw [hp] at h
      simp only at h
      have e : Family.tree ⟨w1.heap, w1.next, fun j => if j = i then w1.store else g.store j⟩ i = w1 := by simp [Family.tree]
      obtain ⟨bs, h1⟩ := run_one puts (f := f) (g := ⟨w1.heap, w1.next, fun j => if j = i then w1.store else g.store j⟩) (w' := w')
        (by
          rw [e]; funext j
          by_cases hj : j = i
          · simp [hj]
          · simp only [if_neg hj]; rw [hs]; simp [hj]) (by rw [e]; exact h)
      refine ⟨b :: bs, ?_⟩
      simp only [List.map_cons, Family.run, Family.put, hp, Option.map_some]
      rw [h1]; rfl

/-- C141 is false of `Hash`: whatever is put on one overlay, the tree on an untouched overlay hashes as if it had been put there. -/
theorem C141_hash_violated {M : Spec.Mapping} (hr : Reach H w M) {i j : Nat} (hij : i ≠ j) (puts : List (Addr × Bytes)) :
    ∃ bs f, (overlays w).run H (puts.map (i, ·)) = some (bs, f) ∧
      hash H (f.tree j) = some (Spec.rootHash H (puts.foldl (fun M e => Spec.set M e.1 e.2) M), f.tree j) := by
  obtain ⟨w', d, h1, -, -, -, h2, -⟩ := giveUp_spec hr.inv puts
  obtain ⟨bs, h3⟩ := run_one (f := overlays w) (i := i) puts (g := overlays w) (w' := w') (by
    funext j; simp [overlays, Family.tree]) h1
  refine ⟨bs, _, h3, ?_⟩
  have e : Family.tree ⟨w'.heap, w'.next, fun k => if k = i then w'.store else (overlays w).store k⟩ j =
      ⟨w'.heap, w'.next, .overlay w.store (some [])⟩ := by simp [Family.tree, Ne.symm hij, overlays]
  rw [e]
  simp only [hash, TM.bind_eq, getNode, newOverlay_get] at h2 ⊢
  simp only [giveUp] at h2
  cases hg : w.store.get [] with
  | none => rw [hg] at h2; cases h2
  | some p0 =>
    rw [hg] at h2
    simp only [TM.bind_eq, asBranch, deref] at h2 ⊢
    cases ho : w'.heap p0 with
    | leaf k v => rw [ho] at h2; simp [TM.panic] at h2
    | branch k c =>
      rw [ho] at h2
      simp only [Pure.pure, TM.pure, Option.some.injEq, Prod.mk.injEq] at h2 ⊢
      exact ⟨h2.1, trivial⟩

/-- C141 is false of `PutEntry`: an entry put on one overlay over a new tree, then another on a second overlay, whose key begins
with the same four bits: the second put panics. Had it been made first, it would not have. -/
theorem C141_panics_violated {a b : Addr} {v u : Bytes} {i j : Nat} (hij : i ≠ j) (hv : v ≠ []) (hu : u ≠ []) (hab : a ≠ b)
    (hf : (Spec.nibbles a).head? = (Spec.nibbles b).head?) :
    (overlays newWorld).run H [(i, a, v), (j, b, u)] = none ∧
    (∃ x, (overlays newWorld).run H [(i, a, v)] = some x) ∧ ∃ x, (overlays newWorld).run H [(j, b, u)] = some x := by
  have one : ∀ i a v, ∃ x, (overlays newWorld).run H [(i, a, v)] = some x := fun i a v => by
    obtain ⟨bs, f, h, -⟩ := C141_hash_violated (H := H) .fresh (Nat.ne_of_lt (Nat.lt_succ_self i)) [(a, v)]
    exact ⟨_, h⟩
  refine ⟨?_, one i a v, one j b u⟩
  obtain ⟨c, w', h1, h2, ch, d, t, h, hit, h3, h4, h5⟩ := left_slot (H := H) a v hv
  have hp : (overlays newWorld).put H i a v =
      some (c, ⟨w'.heap, w'.next, fun k => if k = i then w'.store else (overlays newWorld).store k⟩) := by
    have : (overlays newWorld).tree i = onOverlay newWorld := rfl
    simp only [Family.put, this, h1, Option.map_some]
  simp only [Family.run, hp]
  have e : Family.tree ⟨w'.heap, w'.next, fun k => if k = i then w'.store else (overlays newWorld).store k⟩ j =
      ⟨w'.heap, w'.next, .overlay newWorld.store (some [])⟩ := by simp [Family.tree, Ne.symm hij, overlays]
  have hq : putEntry H b u ⟨w'.heap, w'.next, .overlay newWorld.store (some [])⟩ = none := by
    refine orphan_panics_any (p0 := 0) hu hab hf ?_ ?_ ?_ ?_ h2 h3 hit h4 fun j hj hc => ?_
    · exact (push_inv (newWorld_inv (H := H))).wf.usable
    · rw [newOverlay_get]; simp [newWorld, Store.get, mget]
    · rw [newOverlay_get]; simp [newWorld, Store.get, mget, Ne.symm (keyNibs_ne_nil a)]
    · rw [newOverlay_get]; simp [newWorld, Store.get, mget, Ne.symm (keyNibs_ne_nil b)]
    · rw [h5 j hj] at hc; cases hc.1
  simp only [Family.put, e, hq, Option.map_none]

/-- What the reading theorem says of three candidates: the same key on two of them. -/
example : Spec.nibbles exA ≠ [] ∧
    ∀ bs f, (overlays newWorld).run H [(0, exA, [1]), (1, exA, [2]), (0, exA, [1])] = some (bs, f) →
      bs = [true, true, false] ∧ (∃ x, getEntry exA (f.tree 0) = some (x, f.tree 0) ∧ x.getD [] = [1]) ∧
        (∃ x, getEntry exA (f.tree 1) = some (x, f.tree 1) ∧ x.getD [] = [2]) ∧
        ∃ x, getEntry exA (f.tree 2) = some (x, f.tree 2) ∧ x.getD [] = [] := by
  refine ⟨by decide, fun bs f h => ?_⟩
  obtain ⟨h1, h2⟩ := C141_reads_partial (H := H) .fresh h
  refine ⟨by rw [h1]; simp [rightAnswers, Spec.set], ?_, ?_, ?_⟩
  · simpa [putsOn, Spec.set] using h2 0 exA
  · simpa [putsOn, Spec.set] using h2 1 exA
  · simpa [putsOn, Spec.set] using h2 2 exA

/-- These calls do not panic (whatever the hash function; here, one that is easy to compute). -/
example : ((overlays newWorld).run (fun _ => zeroHash) [(0, exA, [1]), (1, exA, [2]), (0, exA, [1])]).isSome = true := by
  decide +kernel

end Nimiq.Tree
