import Verif.Tree.Props
/-!
# C129, the tree: a batch of puts on an overlay that is given up

`OverlayStore` is there to collect changes that are written down by `Flush` or forgotten by dropping the overlay. C12 has one
example in which dropping it does not undo the puts; this file has what the lower store holds afterwards, in all cases.
-/
namespace Nimiq.Tree

variable {H : Bytes → Hash32}

/-- The tree on the store `lower` again, after the tree in `w` has worked on an overlay over it (`t.Store = lower`). -/
def giveUp (lower : Store) (w : World) : World := { w with store := lower }

/-- The tree of `w` on a new overlay (with its map made) over the store of `w`. -/
def onOverlay (w : World) : World := { w with store := .overlay w.store (some []) }

/-! ## What a put leaves alone -/

/-- The path a node object is labelled with. -/
def label : NodeObj → Nibbles
  | .leaf k _ => k
  | .branch k _ => k

/-- The children of a branch are filed under the first nibble of their suffix. -/
def Filed (ch : Nib → Child) : Prop := ∀ i, (ch i).exist = true → ∃ s, (ch i).suffix = i :: s

/-- Objects that the tree in `w` can have in its hands, where it started in `w0`. -/
def Known (w0 w : World) (p : Ptr) : Prop := p < w.next ∧ (w0.next ≤ p ∨ ∃ k, w0.store.get k = some p)

/-- The leaves of `w0` are still there, and so is its root branch. -/
structure Kept (w0 : World) (p0 : Ptr) (w : World) : Prop where
  usable : w.store.Usable
  next : w0.next ≤ w.next
  leaf : ∀ p k v, p < w0.next → w0.heap p = .leaf k v → w.heap p = .leaf k v
  root : w.store.get [] = some p0
  known : ∀ k p, w.store.get k = some p → Known w0 w p ∧ label (w.heap p) = k
  filed : ∀ p k ch, Known w0 w p → w.heap p = .branch k ch → Filed ch
  only : ∀ p, Known w0 w p → label (w.heap p) = [] → p = p0

variable {w0 w w' : World} {p0 : Ptr}

theorem tbind_inv {α β} {m : TM α} {f : α → TM β} {w w' : World} {x : β} (h : (m >>= f) w = some (x, w')) :
    ∃ a w1, m w = some (a, w1) ∧ f a w1 = some (x, w') := by
  rw [TM.bind_eq] at h
  cases hm : m w with
  | none => rw [hm] at h; simp at h
  | some r => rw [hm] at h; exact ⟨r.1, r.2, rfl, h⟩

theorem tpure_inv {α} {a x : α} {w w' : World} (h : (Pure.pure a : TM α) w = some (x, w')) : x = a ∧ w' = w := by
  simp only [Pure.pure, TM.pure, Option.some.injEq, Prod.mk.injEq] at h; exact ⟨h.1.symm, h.2.symm⟩

theorem tbranch_inv {p : Ptr} {r} (h : asBranch p w = some (r, w')) : w' = w ∧ w.heap p = .branch r.1 r.2 := by
  obtain ⟨o, w1, h1, h2⟩ := tbind_inv h
  simp only [deref, Option.some.injEq, Prod.mk.injEq] at h1
  obtain ⟨rfl, rfl⟩ := h1
  cases ho : w.heap p with
  | leaf a b => simp [ho, TM.panic] at h2
  | branch a b =>
    simp only [ho] at h2
    obtain ⟨rfl, rfl⟩ := tpure_inv h2
    exact ⟨rfl, rfl⟩

theorem tchild_inv {ch s hh} {r} (h : withChild ch s hh w = some (r, w')) :
    w' = w ∧ ∃ i t, s = i :: t ∧ r = setChild ch i ⟨i :: t, hh, true⟩ := by
  cases s with
  | nil => simp [withChild, TM.panic] at h
  | cons i t => obtain ⟨h1, h2⟩ := tpure_inv h; exact ⟨h2, i, t, rfl, h1⟩

theorem tslice_inv {l n} {r} (h : sliceFrom l n w = some (r, w')) : w' = w ∧ r = l.drop n := by
  unfold sliceFrom at h
  split at h
  · obtain ⟨h1, h2⟩ := tpure_inv h; exact ⟨h2, h1⟩
  · simp [TM.panic] at h

theorem tget_inv {k} {r} (h : getNode k w = some (r, w')) : w' = w ∧ w.store.get k = r := by
  simp only [getNode, Option.some.injEq, Prod.mk.injEq] at h; exact ⟨h.2.symm, h.1⟩

theorem Filed.set {ch : Nib → Child} (h : Filed ch) (i : Nib) (t : Nibbles) (hh : Hash32) (b : Bool) :
    Filed (setChild ch i ⟨i :: t, hh, b⟩) := by
  intro j hj
  unfold setChild at hj ⊢
  split at hj
  · rename_i e; subst e; rw [if_pos rfl]; exact ⟨t, rfl⟩
  · rename_i e; rw [if_neg e]; exact h j hj

theorem Filed.drop {ch : Nib → Child} (h : Filed ch) (i : Nib) : Filed (setChild ch i { ch i with exist := false }) := by
  intro j hj
  unfold setChild at hj ⊢
  split at hj
  · simp at hj
  · rename_i e; rw [if_neg e]; exact h j hj

theorem Filed.hash {ch : Nib → Child} (h : Filed ch) (i : Nib) (hh : Hash32) : Filed (setChild ch i { ch i with hash := hh }) := by
  intro j hj
  unfold setChild at hj ⊢
  split at hj
  · rename_i e; subst e; rw [if_pos rfl]; exact h j hj
  · rename_i e; rw [if_neg e]; exact h j hj

theorem Kept.start {M : Spec.Mapping} (I : TreeInv H w M) (h : w.store.get [] = some p0) : Kept w p0 w := by
  have hv : ∀ {k p}, w.store.get k = some p → w.view k = some (w.heap p) := fun h => view_some h
  have hl : ∀ {k p}, w.store.get k = some p → label (w.heap p) = k := by
    intro k p hk
    have := hv hk
    cases ho : w.heap p with
    | leaf a b => rw [ho] at this; exact (I.loc.leaf this).1
    | branch a b => rw [ho] at this; exact (I.loc.branch this).1
  have hk : ∀ {p}, Known w w p → ∃ k, w.store.get k = some p := by
    rintro p ⟨h1, h2 | h2⟩
    · exact absurd h1 (Nat.not_lt.mpr h2)
    · exact h2
  refine ⟨I.wf.usable, Nat.le_refl _, fun _ _ _ _ h => h, h, fun k p hp => ⟨⟨I.wf.alloc hp, .inr ⟨k, hp⟩⟩, hl hp⟩, ?_, ?_⟩
  · intro p k ch hp hb i hi
    obtain ⟨k', hk'⟩ := hk hp
    have := hv hk'
    rw [hb] at this
    obtain ⟨rfl, -⟩ := I.loc.branch this
    exact (I.loc.child this hi).1
  · intro p hp hlab
    obtain ⟨k', hk'⟩ := hk hp
    rw [hl hk'] at hlab
    subst hlab
    rw [h] at hk'
    exact (Option.some.inj hk').symm

theorem Kept.alloc (K : Kept w0 p0 w) {o : NodeObj} {p} (ho : label o ≠ []) (hf : ∀ k ch, o = .branch k ch → Filed ch)
    (h : alloc o w = some (p, w')) : Kept w0 p0 w' ∧ Known w0 w' p ∧ w'.heap p = o ∧
      (∀ q, Known w0 w q → Known w0 w' q ∧ w'.heap q = w.heap q) := by
  simp only [Tree.alloc, Option.some.injEq, Prod.mk.injEq] at h
  obtain ⟨rfl, rfl⟩ := h
  have hn := K.next
  have keep : ∀ q, Known w0 w q → Known w0 { w with heap := fun r => if r = w.next then o else w.heap r, next := w.next + 1 } q ∧
      (if q = w.next then o else w.heap q) = w.heap q := by
    rintro q ⟨h1, h2⟩
    exact ⟨⟨Nat.lt_succ_of_lt h1, h2⟩, if_neg (Nat.ne_of_lt h1)⟩
  have split : ∀ q, Known w0 { w with heap := fun r => if r = w.next then o else w.heap r, next := w.next + 1 } q →
      q = w.next ∨ Known w0 w q := by
    rintro q ⟨h1, h2⟩
    rcases Nat.lt_succ_iff_lt_or_eq.mp h1 with h | h
    · exact .inr ⟨h, h2⟩
    · exact .inl h
  refine ⟨⟨K.usable, Nat.le_succ_of_le hn, ?_, K.root, ?_, ?_, ?_⟩, ⟨Nat.lt_succ_self _, .inl hn⟩, by simp, keep⟩
  · intro p k v hp hl
    show (if p = w.next then o else w.heap p) = _
    rw [if_neg (Nat.ne_of_lt (Nat.lt_of_lt_of_le hp hn))]; exact K.leaf p k v hp hl
  · intro k p hp
    obtain ⟨h1, h2⟩ := K.known k p hp
    refine ⟨(keep p h1).1, ?_⟩
    show label (if p = w.next then o else w.heap p) = k
    rw [(keep p h1).2]; exact h2
  · intro p k ch hp hb
    have hb : (if p = w.next then o else w.heap p) = .branch k ch := hb
    rcases split p hp with rfl | h
    · rw [if_pos rfl] at hb; exact hf _ _ hb
    · rw [(keep p h).2] at hb; exact K.filed p k ch h hb
  · intro p hp hb
    have hb : label (if p = w.next then o else w.heap p) = [] := hb
    rcases split p hp with rfl | h
    · rw [if_pos rfl] at hb; exact absurd hb ho
    · rw [(keep p h).2] at hb; exact K.only p h hb

theorem Kept.write (K : Kept w0 p0 w) {p : Ptr} {k : Nibbles} {ch ch' : Nib → Child} {u} (hp : Known w0 w p)
    (hb : w.heap p = .branch k ch) (hf : Filed ch') (h : write p (.branch k ch') w = some (u, w')) :
    Kept w0 p0 w' ∧ w'.heap p = .branch k ch' ∧ (∀ q, Known w0 w q → Known w0 w' q) := by
  simp only [Tree.write, Option.some.injEq, Prod.mk.injEq] at h
  obtain ⟨-, rfl⟩ := h
  have hl : ∀ q, label (if q = p then NodeObj.branch k ch' else w.heap q) = label (w.heap q) := by
    intro q
    by_cases h : q = p
    · subst h; rw [if_pos rfl, hb]; rfl
    · rw [if_neg h]
  refine ⟨⟨K.usable, K.next, ?_, K.root, ?_, ?_, ?_⟩, by simp, fun _ h => h⟩
  · intro q j v hq hv
    have hne : q ≠ p := by
      intro e; subst e
      have := K.leaf q j v hq hv
      rw [hb] at this; cases this
    show (if q = p then _ else w.heap q) = _
    rw [if_neg hne]; exact K.leaf q j v hq hv
  · intro j q hq
    obtain ⟨h1, h2⟩ := K.known j q hq
    exact ⟨h1, (hl q).trans h2⟩
  · intro q j c hq hc
    have hc : (if q = p then NodeObj.branch k ch' else w.heap q) = .branch j c := hc
    by_cases h : q = p
    · rw [if_pos h] at hc; cases hc; exact hf
    · rw [if_neg h] at hc; exact K.filed q j c hq hc
  · intro q hq hc
    exact K.only q hq ((hl q).symm.trans hc)

theorem Kept.put (K : Kept w0 p0 w) {p : Ptr} {k : Nibbles} {u} (hp : Known w0 w p) (hl : label (w.heap p) = k)
    (h : putNode k p w = some (u, w')) : Kept w0 p0 w' ∧ w'.heap = w.heap ∧ (∀ q, Known w0 w q → Known w0 w' q) := by
  obtain ⟨s, hs, hu, hg⟩ := w.store.put_spec K.usable k p
  simp only [putNode, hs, Option.map_some, Option.some.injEq, Prod.mk.injEq] at h
  obtain ⟨-, rfl⟩ := h
  refine ⟨⟨hu, K.next, K.leaf, ?_, ?_, K.filed, K.only⟩, rfl, fun _ h => h⟩
  · show s.get [] = _
    rw [hg]
    by_cases hk : ([] : Nibbles) = k
    · subst hk; rw [if_pos rfl, K.only p hp hl]
    · rw [if_neg hk]; exact K.root
  · intro j q hq
    have hq : s.get j = some q := hq
    rw [hg] at hq
    by_cases hk : j = k
    · rw [if_pos hk] at hq; cases hq; exact ⟨hp, hl.trans hk.symm⟩
    · rw [if_neg hk] at hq; exact K.known j q hq

theorem Kept.del (K : Kept w0 p0 w) {k : Nibbles} {u} (hk : k ≠ []) (h : delNode k w = some (u, w')) :
    Kept w0 p0 w' ∧ w'.heap = w.heap ∧ (∀ q, Known w0 w q → Known w0 w' q) := by
  obtain ⟨s, hs, hu, hg⟩ := w.store.del_spec K.usable k
  simp only [delNode, hs, Option.map_some, Option.some.injEq, Prod.mk.injEq] at h
  obtain ⟨-, rfl⟩ := h
  refine ⟨⟨hu, K.next, K.leaf, ?_, ?_, K.filed, K.only⟩, rfl, fun _ h => h⟩
  · show s.get [] = _
    rw [hg, if_neg (Ne.symm hk)]; exact K.root
  · intro j q hq
    have hq : s.get j = some q := hq
    rw [hg] at hq
    by_cases hj : j = k
    · rw [if_pos hj] at hq; cases hq
    · rw [if_neg hj] at hq; exact K.known j q hq

theorem Kept.invalidate : ∀ (path : List Ptr) (cur : Nibbles) {w w' : World} {r}, Kept w0 p0 w → (∀ p ∈ path, Known w0 w p) →
    invalidatePath cur path w = some (r, w') → Kept w0 p0 w'
  | [], _, w, w', r, K, _, h => by obtain ⟨-, rfl⟩ := tpure_inv h; exact K
  | p :: path, cur, w, w', r, K, hp, h => by
    obtain ⟨⟨pfx, ch⟩, w1, h1, h2⟩ := tbind_inv h
    obtain ⟨rfl, hb⟩ := tbranch_inv h1
    obtain ⟨s, w2, h3, h4⟩ := tbind_inv h2
    obtain ⟨rfl, -⟩ := tslice_inv h3
    obtain ⟨c, w3, h5, h6⟩ := tbind_inv h4
    obtain ⟨rfl, i, t, -, rfl⟩ := tchild_inv h5
    obtain ⟨_, w4, h7, h8⟩ := tbind_inv h6
    have hk := hp p List.mem_cons_self
    obtain ⟨K', -, hm⟩ := K.write hk hb ((K.filed _ _ _ hk hb).set i t _ _) h7
    exact Kept.invalidate path _ K' (fun q hq => hm q (hp q (List.mem_cons_of_mem _ hq))) h8

theorem Kept.prune : ∀ (path : List Ptr) (cur : Nibbles) {w w' : World} {r}, Kept w0 p0 w → (∀ p ∈ path, Known w0 w p) →
    prune cur path w = some (r, w') → Kept w0 p0 w'
  | [], _, w, w', r, K, _, h => by obtain ⟨-, rfl⟩ := tpure_inv h; exact K
  | p :: path, cur, w, w', r, K, hp, h => by
    obtain ⟨⟨pfx, ch⟩, w1, h1, h2⟩ := tbind_inv h
    obtain ⟨rfl, hb⟩ := tbranch_inv h1
    cases hd : cur.drop pfx.length with
    | nil => simp [hd, TM.panic] at h2
    | cons i t =>
      simp only [hd] at h2
      obtain ⟨_, w2, h3, h4⟩ := tbind_inv h2
      have hk := hp p List.mem_cons_self
      obtain ⟨K2, hb2, hm2⟩ := K.write hk hb ((K.filed _ _ _ hk hb).drop i) h3
      have hp2 : ∀ q ∈ path, Known w0 w2 q := fun q hq => hm2 q (hp q (List.mem_cons_of_mem _ hq))
      have put : ∀ {c : Nibbles}, (putNode pfx p >>= fun _ => invalidatePath c path) w2 = some (r, w') → Kept w0 p0 w' := by
        intro c h
        obtain ⟨_, w3, h5, h6⟩ := tbind_inv h
        obtain ⟨K3, -, hm3⟩ := K2.put (hm2 p hk) (by rw [hb2]; rfl) h5
        exact Kept.invalidate path _ K3 (fun q hq => hm3 q (hp2 q hq)) h6
      revert h4
      generalize existing (setChild ch i { ch i with exist := false }) = ex
      intro h4
      rcases ex with _ | ⟨c, _ | ⟨c', cs⟩⟩
      · simp only at h4
        split at h4
        · exact put h4
        · exact Kept.prune path _ K2 hp2 h4
      · simp only at h4
        split at h4
        · rename_i hlen
          obtain ⟨_, w3, h5, h6⟩ := tbind_inv h4
          obtain ⟨K3, -, hm3⟩ := K2.del (by intro e; rw [e] at hlen; simp at hlen) h5
          exact Kept.invalidate path _ K3 (fun q hq => hm3 q (hp2 q hq)) h6
        · exact put h4
      · exact put h4

/-- The descent does not leave the target's path at its first nibble. -/
def Starts (np q : Nibbles) : Prop := np = [] ∨ ∃ i s t, np = i :: s ∧ q = i :: t

theorem Starts.common {np q : Nibbles} (h : Starts np q) (hn : ¬ prefixOf np q = true) : commonPrefix np q ≠ [] := by
  rcases h with rfl | ⟨i, s, t, rfl, rfl⟩
  · exact absurd (by unfold prefixOf; rfl) hn
  · simp [commonPrefix]

theorem Kept.update : ∀ (fuel : Nat) (np : Nibbles) {q : Nibbles} {v : Bytes} (path : List Ptr) {w w' : World} {r}, Kept w0 p0 w →
    q ≠ [] → Starts np q → (∀ p ∈ path, Known w0 w p) → update fuel np q v path w = some (r, w') → Kept w0 p0 w'
  | 0, _, _, _, _, w, w', r, _, _, _, _, h => by simp [Tree.update, TM.panic] at h
  | fuel + 1, np, q, v, path, w, w', r, K, hq, hst, hp, h => by
    rw [Tree.update] at h
    split at h
    · rename_i hpre
      obtain ⟨p, w1, h1, h2⟩ := tbind_inv h
      obtain ⟨K1, hp1, hl1, hm1⟩ := K.alloc (o := .leaf q v) hq (by simp) h1
      obtain ⟨_, w2, h3, h4⟩ := tbind_inv h2
      obtain ⟨K2, -, hm2⟩ := K1.put hp1 (by rw [hl1]; rfl) h3
      obtain ⟨s1, w3, h5, h6⟩ := tbind_inv h4
      obtain ⟨rfl, -⟩ := tslice_inv h5
      obtain ⟨c1, w4, h7, h8⟩ := tbind_inv h6
      obtain ⟨rfl, i1, t1, -, rfl⟩ := tchild_inv h7
      obtain ⟨s2, w5, h9, h10⟩ := tbind_inv h8
      obtain ⟨rfl, -⟩ := tslice_inv h9
      obtain ⟨c2, w6, h11, h12⟩ := tbind_inv h10
      obtain ⟨rfl, i2, t2, -, rfl⟩ := tchild_inv h11
      obtain ⟨p7, w7, h13, h14⟩ := tbind_inv h12
      have hz : Filed fun _ => Child.zero := by intro i hi; simp [Child.zero] at hi
      obtain ⟨K7, hp7, hl7, hm7⟩ := K2.alloc (o := .branch _ _) (hst.common hpre)
        (by intro k ch h; cases h; exact (hz.set i1 t1 _ _).set i2 t2 _ _) h13
      obtain ⟨_, w8, h15, h16⟩ := tbind_inv h14
      obtain ⟨K8, -, hm8⟩ := K7.put hp7 (by rw [hl7]; rfl) h15
      exact Kept.invalidate path _ K8 (fun x hx => hm8 x (hm7 x (hm2 x (hm1 x (hp x hx)).1)).1) h16
    · split at h
      · rename_i hnp
        subst hnp
        split at h
        · obtain ⟨_, w1, h1, h2⟩ := tbind_inv h
          obtain ⟨K1, -, hm1⟩ := K.del hq h1
          exact Kept.prune path _ K1 (fun x hx => hm1 x (hp x hx)) h2
        · obtain ⟨p, w1, h1, h2⟩ := tbind_inv h
          obtain ⟨K1, hp1, hl1, hm1⟩ := K.alloc (o := .leaf _ v) hq (by simp) h1
          obtain ⟨_, w2, h3, h4⟩ := tbind_inv h2
          obtain ⟨K2, -, hm2⟩ := K1.put hp1 (by rw [hl1]; rfl) h3
          exact Kept.invalidate path _ K2 (fun x hx => hm2 x (hm1 x (hp x hx)).1) h4
      · obtain ⟨n, w1, h1, h2⟩ := tbind_inv h
        obtain ⟨rfl, hn⟩ := tget_inv h1
        split at h2
        · simp [TM.panic] at h2
        · rename_i node
          obtain ⟨⟨npfx, ch⟩, w2, h3, h4⟩ := tbind_inv h2
          obtain ⟨rfl, hb⟩ := tbranch_inv h3
          obtain ⟨hkn, hlab⟩ := K.known _ _ hn
          have e : npfx = np := by rw [hb] at hlab; exact hlab
          subst e
          cases hd : q.drop npfx.length with
          | nil => simp [hd, TM.panic] at h4
          | cons i t =>
            simp only [hd] at h4
            split at h4
            · rename_i hex
              obtain ⟨s, hs⟩ := K.filed _ _ _ hkn hb i hex
              refine Kept.update fuel _ (node :: path) K hq ?_ ?_ h4
              · rw [hs]
                rcases hst with rfl | ⟨j, s', t', rfl, rfl⟩
                · exact .inr ⟨i, s, t, rfl, by simpa using hd⟩
                · exact .inr ⟨j, s' ++ i :: s, t', rfl, rfl⟩
              · intro x hx
                rcases List.mem_cons.mp hx with rfl | hx
                · exact hkn
                · exact hp x hx
            · obtain ⟨p, w3, h5, h6⟩ := tbind_inv h4
              obtain ⟨K3, hp3, hl3, hm3⟩ := K.alloc (o := .leaf q v) hq (by simp) h5
              obtain ⟨_, w4, h7, h8⟩ := tbind_inv h6
              obtain ⟨K4, hh4, hm4⟩ := K3.put hp3 (by rw [hl3]; rfl) h7
              obtain ⟨⟨np2, ch2⟩, w5, h9, h10⟩ := tbind_inv h8
              obtain ⟨rfl, hb2⟩ := tbranch_inv h9
              obtain ⟨s, w6, h11, h12⟩ := tbind_inv h10
              obtain ⟨rfl, -⟩ := tslice_inv h11
              obtain ⟨c, w7, h13, h14⟩ := tbind_inv h12
              obtain ⟨rfl, j, t', -, rfl⟩ := tchild_inv h13
              obtain ⟨_, w8, h15, h16⟩ := tbind_inv h14
              have hk4 := hm4 _ (hm3 _ hkn).1
              obtain ⟨K8, hb8, hm8⟩ := K4.write hk4 hb2 ((K4.filed _ _ _ hk4 hb2).set j t' _ _) h15
              obtain ⟨_, w9, h17, h18⟩ := tbind_inv h16
              obtain ⟨K9, -, hm9⟩ := K8.put (hm8 _ hk4) (by rw [hb8]; rfl) h17
              exact Kept.invalidate path _ K9 (fun x hx => hm9 x (hm8 x (hm4 x (hm3 x (hp x hx)).1))) h18

theorem Kept.hashLoop {rec : Nibbles → TM Hash32}
    (hrec : ∀ k {w w' : World} {r}, Kept w0 p0 w → rec k w = some (r, w') → Kept w0 p0 w' ∧ ∀ q, Known w0 w q → Known w0 w' q)
    (k : Nibbles) (p : Ptr) : ∀ (is : List Nib) {w w' : World} {r}, Kept w0 p0 w → Known w0 w p →
    Tree.hashLoop rec k p is w = some (r, w') → Kept w0 p0 w' ∧ ∀ q, Known w0 w q → Known w0 w' q
  | [], w, w', r, K, _, h => by obtain ⟨-, rfl⟩ := tpure_inv h; exact ⟨K, fun _ h => h⟩
  | i :: is, w, w', r, K, hp, h => by
    obtain ⟨⟨pfx, ch⟩, w1, h1, h2⟩ := tbind_inv h
    obtain ⟨rfl, hb⟩ := tbranch_inv h1
    simp only at h2
    split at h2
    · obtain ⟨hh, w2, h3, h4⟩ := tbind_inv h2
      obtain ⟨K2, hm2⟩ := hrec _ K h3
      obtain ⟨⟨pfx2, ch2⟩, w3, h5, h6⟩ := tbind_inv h4
      obtain ⟨rfl, hb2⟩ := tbranch_inv h5
      obtain ⟨_, w4, h7, h8⟩ := tbind_inv h6
      obtain ⟨K4, -, hm4⟩ := K2.write (hm2 p hp) hb2 ((K2.filed _ _ _ (hm2 p hp) hb2).hash i hh) h7
      obtain ⟨K5, hm5⟩ := Kept.hashLoop hrec k p is K4 (hm4 p (hm2 p hp)) h8
      exact ⟨K5, fun q hq => hm5 q (hm4 q (hm2 q hq))⟩
    · exact Kept.hashLoop hrec k p is K hp h2

theorem Kept.hashes : ∀ (fuel : Nat) (k : Nibbles) {w w' : World} {r}, Kept w0 p0 w →
    updateHashes H fuel k w = some (r, w') → Kept w0 p0 w' ∧ ∀ q, Known w0 w q → Known w0 w' q
  | 0, _, w, w', r, _, h => by simp [updateHashes, TM.panic] at h
  | fuel + 1, k, w, w', r, K, h => by
    rw [updateHashes] at h
    obtain ⟨n, w1, h1, h2⟩ := tbind_inv h
    obtain ⟨rfl, hn⟩ := tget_inv h1
    split at h2
    · simp [TM.panic] at h2
    · rename_i p
      have hp := (K.known _ _ hn).1
      obtain ⟨o, w2, h3, h4⟩ := tbind_inv h2
      simp only [deref, Option.some.injEq, Prod.mk.injEq] at h3
      obtain ⟨rfl, rfl⟩ := h3
      cases ho : w1.heap p with
      | leaf lp lv => simp only [ho] at h4; obtain ⟨-, rfl⟩ := tpure_inv h4; exact ⟨K, fun _ h => h⟩
      | branch bp bch =>
        simp only [ho] at h4
        obtain ⟨_, w3, h5, h6⟩ := tbind_inv h4
        obtain ⟨K3, hm3⟩ := Kept.hashLoop (Kept.hashes fuel) k _ _ K hp h5
        obtain ⟨⟨np, ch⟩, w4, h7, h8⟩ := tbind_inv h6
        obtain ⟨rfl, hb⟩ := tbranch_inv h7
        obtain ⟨_, w5, h9, h10⟩ := tbind_inv h8
        obtain ⟨-, rfl⟩ := tpure_inv h10
        obtain ⟨K5, -, hm5⟩ := K3.put (hm3 p hp) (by rw [hb]; rfl) h9
        exact ⟨K5, fun q hq => hm5 q (hm3 q hq)⟩

theorem keyNibs_ne_nil (a : Addr) : keyNibs a ≠ [] := by
  intro h; have := keyNibs_length a; rw [h] at this; simp at this

theorem Kept.putEntry (K : Kept w0 p0 w) {a : Addr} {v : Bytes} {b} (h : putEntry H a v w = some (b, w')) : Kept w0 p0 w' := by
  obtain ⟨c, w1, h1, h2⟩ := tbind_inv h
  obtain ⟨_, w2, h3, h4⟩ := tbind_inv h2
  obtain ⟨-, rfl⟩ := tpure_inv h4
  refine (Kept.hashes _ _ ?_ h3).1
  unfold updateEntry at h1
  obtain ⟨n, w3, h5, h6⟩ := tbind_inv h1
  obtain ⟨rfl, -⟩ := tget_inv h5
  have upd : ∀ {x : Bool}, (Tree.update maxDepth [] (keyNibs a) v [] >>= fun _ => (Pure.pure x : TM Bool)) w3 = some (c, w1) →
      Kept w0 p0 w1 := by
    intro x h
    obtain ⟨_, w4, h7, h8⟩ := tbind_inv h
    obtain ⟨-, rfl⟩ := tpure_inv h8
    exact K.update _ _ _ (keyNibs_ne_nil a) (.inl rfl) (by simp) h7
  split at h6
  · split at h6
    · obtain ⟨-, rfl⟩ := tpure_inv h6; exact K
    · exact upd h6
  · obtain ⟨o, w4, h7, h8⟩ := tbind_inv h6
    simp only [deref, Option.some.injEq, Prod.mk.injEq] at h7
    obtain ⟨rfl, rfl⟩ := h7
    rename_i p
    cases ho : w3.heap p with
    | leaf lp lv =>
      simp only [ho] at h8
      split at h8
      · obtain ⟨-, rfl⟩ := tpure_inv h8; exact K
      · exact upd h8
    | branch bp bch => simp only [ho] at h8; exact upd h8

theorem Kept.runPuts : ∀ (puts : List (Addr × Bytes)) {w w' : World}, Kept w0 p0 w → runPuts H puts w = some w' → Kept w0 p0 w'
  | [], w, w', K, h => by cases h; exact K
  | (a, v) :: puts, w, w', K, h => by
    simp only [Tree.runPuts] at h
    cases hp : Tree.putEntry H a v w with
    | none => rw [hp] at h; simp at h
    | some r => rw [hp] at h; exact Kept.runPuts puts (K.putEntry hp) h

/-! ## C129 -/

/-- The mapping after the puts. -/
def after (M : Spec.Mapping) (puts : List (Addr × Bytes)) : Spec.Mapping := puts.foldl (fun M e => Spec.set M e.1 e.2) M

theorem runPuts_after : ∀ (puts : List (Addr × Bytes)) {w : World} {M : Spec.Mapping}, TreeInv H w M →
    ∃ w', runPuts H puts w = some w' ∧ TreeInv H w' (after M puts)
  | [], w, M, I => ⟨w, rfl, I⟩
  | (a, v) :: puts, w, M, I => by
    obtain ⟨b, w1, h1, I1, -⟩ := putEntry_spec I a v
    obtain ⟨w', h2, I2⟩ := runPuts_after puts I1
    exact ⟨w', by simp only [runPuts, h1]; exact h2, I2⟩

theorem giveUp_spec {M : Spec.Mapping} (I : TreeInv H w M) (puts : List (Addr × Bytes)) :
    ∃ w' d, runPuts H puts (onOverlay w) = some w' ∧ w'.store = .overlay w.store d ∧ TreeInv H w' (after M puts) ∧
      (∀ b, getEntry b (giveUp w.store w') = some (if M b = [] then none else some (M b), giveUp w.store w')) ∧
      hash H (giveUp w.store w') = some (Spec.rootHash H (after M puts), giveUp w.store w') ∧
      Kept (onOverlay w) ((w.store.get []).getD 0) w' := by
  have I0 : TreeInv H (onOverlay w) M := push_inv I
  have hg : ∀ k, (onOverlay w).store.get k = w.store.get k := by
    intro k; simp [onOverlay, Store.get, mget]
  obtain ⟨ch, hb⟩ := I.loc.root
  obtain ⟨p0, hp0, -⟩ := I.wf.r.get hb
  obtain ⟨w', h1, I'⟩ := runPuts_after puts I0
  obtain ⟨d, hd⟩ := C12_partial puts (H := H) (w := onOverlay w) (lower := w.store) rfl h1
  have K := Kept.runPuts puts (Kept.start I0 ((hg []).trans hp0)) h1
  refine ⟨w', d, h1, hd, I', fun b => ?_, ?_, by rw [hp0]; exact K⟩
  · have hgb := getEntry_spec I0 b
    simp only [getEntry, TM.bind_eq, getNode, hg] at hgb
    have hst : (giveUp w.store w').store = w.store := rfl
    simp only [getEntry, TM.bind_eq, getNode, hst]
    cases hs : w.store.get (keyNibs b) with
    | none =>
      rw [hs] at hgb
      simp only [Pure.pure, TM.pure, Option.some.injEq, Prod.mk.injEq] at hgb ⊢
      exact hgb
    | some p =>
      rw [hs] at hgb
      simp only [TM.bind_eq, deref] at hgb ⊢
      cases ho : (onOverlay w).heap p with
      | branch k c => rw [ho] at hgb; simp [TM.panic] at hgb
      | leaf k v =>
        rw [ho] at hgb
        have hl : (giveUp w.store w').heap p = .leaf k v := K.leaf p k v (I0.wf.alloc ((hg _).trans hs)) ho
        rw [hl]
        simp only [Pure.pure, TM.pure, Option.some.injEq, Prod.mk.injEq] at hgb ⊢
        exact hgb
  · have hh := hash_spec I'
    simp only [hash, TM.bind_eq, getNode, K.root] at hh
    have hst : (giveUp w.store w').store = w.store := rfl
    simp only [hash, TM.bind_eq, getNode, hst, hp0]
    simp only [TM.bind_eq, asBranch, deref] at hh ⊢
    have hhp : (giveUp w.store w').heap p0 = w'.heap p0 := rfl
    rw [hhp]
    cases ho : w'.heap p0 with
    | leaf k v => rw [ho] at hh; simp [TM.panic] at hh
    | branch k c =>
      rw [ho] at hh
      simp only [Pure.pure, TM.pure, Option.some.injEq, Prod.mk.injEq] at hh ⊢
      exact hh

/-- C129. Whatever tree and whatever puts: when the overlay is dropped, every `GetEntry` answers as before the puts. -/
theorem C129_reads_partial {M : Spec.Mapping} (hr : Reach H w M) (puts : List (Addr × Bytes)) :
    ∃ w', runPuts H puts (onOverlay w) = some w' ∧
      ∀ b, getEntry b (giveUp w.store w') = some (if M b = [] then none else some (M b), giveUp w.store w') := by
  obtain ⟨w', d, h1, -, -, h2, -⟩ := giveUp_spec hr.inv puts
  exact ⟨w', h1, h2⟩

/-- C129 is false of `Hash`: when the overlay is dropped, `Hash` answers as if the puts had been made, always. -/
theorem C129_hash_violated {M : Spec.Mapping} (hr : Reach H w M) (puts : List (Addr × Bytes)) :
    ∃ w', runPuts H puts (onOverlay w) = some w' ∧
      hash H (giveUp w.store w') = some (Spec.rootHash H (puts.foldl (fun M e => Spec.set M e.1 e.2) M), giveUp w.store w') := by
  obtain ⟨w', d, h1, -, -, -, h2, -⟩ := giveUp_spec hr.inv puts
  exact ⟨w', h1, h2⟩

/-- C129: writing the overlay down instead, in any order, makes the puts final. -/
theorem C129_flush {M : Spec.Mapping} (hr : Reach H w M) (puts : List (Addr × Bytes)) :
    ∃ w' d, runPuts H puts (onOverlay w) = some w' ∧ w'.store = .overlay w.store (some d) ∧ ∀ order, order.Perm d →
      ∃ lower, w'.store.flush order = some (.overlay lower (some [])) ∧
        (∀ b, getEntry b (giveUp lower w') =
          some (let v := puts.foldl (fun M e => Spec.set M e.1 e.2) M b; if v = [] then none else some v, giveUp lower w')) ∧
        hash H (giveUp lower w') = some (Spec.rootHash H (puts.foldl (fun M e => Spec.set M e.1 e.2) M), giveUp lower w') := by
  obtain ⟨w', d, h1, h2, I', -, -, -⟩ := giveUp_spec hr.inv puts
  have hu := I'.wf.usable
  rw [h2] at hu
  obtain ⟨hu1, d', rfl, hu2⟩ := hu
  refine ⟨w', d', h1, h2, fun order ho => ?_⟩
  obtain ⟨l', e1, e2, e3⟩ := flush_spec hu1 hu2 ho
  refine ⟨l', by rw [h2]; exact e1, ?_⟩
  have hg : ∀ k, l'.get k = w'.store.get k := fun k => by rw [h2]; exact e3 k
  have hv : (giveUp l' w').view = w'.view := by
    funext k; simp only [World.view, giveUp, hg]
  have I2 : TreeInv H (giveUp l' w') (after M puts) := by
    refine ⟨⟨e2, ?_, ?_⟩, ?_, ?_, ?_⟩
    · intro k p h; exact I'.wf.alloc ((hg k).symm.trans h)
    · intro k k' p h h'; exact I'.wf.inj ((hg k).symm.trans h) ((hg k').symm.trans h')
    · rw [hv]; exact I'.loc
    · rw [hv]; exact I'.clean
    · rw [hv]; exact I'.map
  exact ⟨getEntry_spec I2, hash_spec I2⟩

/-! ## A tree on the store that was left behind -/

/-- The loop over the children panics when it comes to a child whose hashing panics. -/
theorem hashLoop_none {rec : Nibbles → TM Hash32} {k : Nibbles} {p : Ptr} {i : Nib} {c : Child} (S : World → Prop)
    (hS : ∀ w, S w → ∃ kk ch, w.heap p = .branch kk ch ∧ ch i = c ∧ ∀ j, j ≠ i → (ch j).exist = true → (ch j).hash = zeroHash →
      ∃ h, rec (k ++ (ch j).suffix) w = some (h, w) ∧
        S { w with heap := fun q => if q = p then .branch kk (setChild ch j { ch j with hash := h }) else w.heap q })
    (he : c.exist = true) (hz : c.hash = zeroHash) (hc : ∀ w, S w → rec (k ++ c.suffix) w = none) :
    ∀ is, i ∈ is → ∀ w, S w → hashLoop rec k p is w = none
  | [], hi, _, _ => by simp at hi
  | j :: is, hi, w, hw => by
    obtain ⟨kk, ch, h1, h2, h3⟩ := hS w hw
    have hb : asBranch p w = some ((kk, ch), w) := by simp [asBranch, TM.bind_eq, deref, h1, Pure.pure, TM.pure]
    simp only [hashLoop, TM.bind_eq, hb]
    by_cases hji : j = i
    · subst hji
      rw [h2, if_pos ⟨he, hz⟩, TM.bind_eq, hc w hw]
    · have hi' : i ∈ is := by
        rcases List.mem_cons.mp hi with h | h
        · exact absurd h.symm hji
        · exact h
      by_cases hj : (ch j).exist = true ∧ (ch j).hash = zeroHash
      · obtain ⟨h, h4, h5⟩ := h3 j hji hj.1 hj.2
        rw [if_pos hj, TM.bind_eq, h4]
        simp only [TM.bind_eq, hb, write]
        exact hashLoop_none S hS he hz hc is hi' _ h5
      · rw [if_neg hj]
        exact hashLoop_none S hS he hz hc is hi' w hw

/-- The first entry, put on an overlay that is dropped: what is left behind. -/
theorem left_behind (a : Addr) (v : Bytes) (hv : v ≠ []) : ∃ b w', putEntry H a v (onOverlay newWorld) = some (b, w') ∧
    1 ≤ w'.next ∧ ∃ ch, w'.heap 0 = .branch [] ch ∧
      ∀ i, (ch i).exist = true → (ch i).suffix = keyNibs a ∧ ∃ t, keyNibs a = i :: t := by
  have I : TreeInv H newWorld fun _ => [] := newWorld_inv
  obtain ⟨w', d, h1, -, I', -, -, K⟩ := giveUp_spec I [(a, v)]
  simp only [runPuts] at h1
  cases hp : putEntry H a v (onOverlay newWorld) with
  | none => rw [hp] at h1; simp at h1
  | some r =>
    obtain ⟨b, w1⟩ := r
    rw [hp] at h1
    cases h1
    refine ⟨b, w', rfl, K.next, ?_⟩
    obtain ⟨ch, hb⟩ := I'.loc.root
    obtain ⟨p0, hp0, hh⟩ := I'.wf.r.get hb
    have e : p0 = 0 := by
      have := K.root
      rw [hp0] at this
      simpa [newWorld, Store.get, mget] using this
    subst e
    refine ⟨ch, hh, fun i hi => ?_⟩
    obtain ⟨⟨s, hs⟩, hne⟩ := I'.loc.child hb hi
    have hsuf : (ch i).suffix = keyNibs a := by
      have hM : ∀ x, after (fun _ => []) [(a, v)] x ≠ [] → x = a := by
        intro x hx
        by_cases h : x = a
        · exact h
        · exact absurd (by simp [after, Spec.set, h]) hx
      rw [List.nil_append] at hne
      cases ho : w'.view (ch i).suffix with
      | none => exact absurd ho hne
      | some o =>
        cases o with
        | leaf k u =>
          obtain ⟨rfl, h2, x, h3, h4⟩ := (I'.leaf_iff _ _ _).mp ho
          rw [h3, hM x (by rw [h4]; exact h2), ← keyNibs_eq]
        | branch k c =>
          rcases (I'.branch_iff _).mp ⟨k, c, ho⟩ with h | ⟨x, y, j, l, hx, hy, hjl, h3, h4⟩
          · rw [hs] at h; cases h
          · exfalso
            rw [hM x hx] at h3
            rw [hM y hy] at h4
            have := pre_len_eq h3 h4 (by simp)
            simp only [List.append_cancel_left_eq, List.cons.injEq, and_true] at this
            exact hjl this
    exact ⟨hsuf, s, hsuf ▸ hs⟩

theorem left_slot (a : Addr) (v : Bytes) (hv : v ≠ []) : ∃ b w', putEntry H a v (onOverlay newWorld) = some (b, w') ∧
    1 ≤ w'.next ∧ ∃ ch i t h, keyNibs a = i :: t ∧ w'.heap 0 = .branch [] ch ∧ ch i = ⟨i :: t, h, true⟩ ∧
      ∀ j, j ≠ i → (ch j).exist = false := by
  obtain ⟨b, w', h1, h2, ch, h3, h4⟩ := left_behind (H := H) a v hv
  have I : TreeInv H newWorld fun _ => [] := newWorld_inv
  obtain ⟨w1, d, h5, -, I', -, -, K⟩ := giveUp_spec I [(a, v)]
  simp only [runPuts, h1] at h5
  cases h5
  have hroot : w'.view [] = some (.branch [] ch) := by
    rw [← h3]
    exact view_some (by rw [K.root]; simp [newWorld, Store.get, mget])
  obtain ⟨i, t, hit⟩ : ∃ i t, keyNibs a = i :: t := by
    cases h : keyNibs a with
    | nil => exact absurd h (keyNibs_ne_nil a)
    | cons i t => exact ⟨i, t, rfl⟩
  have hi : (ch i).exist = true := by
    refine (I'.slot_iff hroot i).mpr ⟨a, by simpa [after, Spec.set] using hv, ?_⟩
    rw [← keyNibs_eq, hit]
    exact ⟨t, rfl⟩
  refine ⟨b, w', h1, h2, ch, i, t, (ch i).hash, hit, h3, ?_, fun j hj => ?_⟩
  · have := (h4 i hi).1
    rw [hit] at this
    cases hc : ch i with
    | mk s h e => rw [hc] at this hi; simp only at this hi; subst this; subst hi; rfl
  · by_contra hne
    have he : (ch j).exist = true := by cases h : (ch j).exist <;> simp_all
    obtain ⟨-, t', ht'⟩ := h4 j he
    rw [hit] at ht'
    exact hj (List.cons.inj ht').1.symm

/-- Hashing panics in a tree whose root leads to a branch one of whose two children is missing. -/
theorem missing_child {w : World} {p0 n : Ptr} {i x y : Nib} {c1 s r : Nibbles} {u : Bytes} {ch ch2 : Nib → Child}
    (hxy : x ≠ y) (g0 : w.store.get [] = some p0) (g1 : w.store.get (i :: c1) = some (n + 1))
    (gA : w.store.get (i :: c1 ++ x :: s) = none) (gB : w.store.get (i :: c1 ++ y :: r) = some n)
    (h0 : w.heap p0 = .branch [] ch) (hn : w.heap n = .leaf (i :: c1 ++ y :: r) u) (hn1 : w.heap (n + 1) = .branch (i :: c1) ch2)
    (hi : ch i = ⟨i :: c1, zeroHash, true⟩) (hother : ∀ j, j ≠ i → ¬ ((ch j).exist = true ∧ (ch j).hash = zeroHash))
    (hx : ch2 x = ⟨x :: s, zeroHash, true⟩) (hy : (ch2 y).suffix = y :: r)
    (ho : ∀ j, j ≠ x → j ≠ y → (ch2 j).exist = false) (f : Nat) : updateHashes H (f + 2 + 1) [] w = none := by
  have inner : updateHashes H (f + 2) (i :: c1) w = none := by
    simp only [updateHashes, TM.bind_eq, getNode, g1, deref, hn1]
    rw [hashLoop_none (i := x) (c := ⟨x :: s, zeroHash, true⟩) (fun w1 => w1.store = w.store ∧
      w1.heap n = .leaf (i :: c1 ++ y :: r) u ∧ ∃ c, w1.heap (n + 1) = .branch (i :: c1) c ∧ c x = ⟨x :: s, zeroHash, true⟩ ∧
        (c y).suffix = y :: r ∧ ∀ j, j ≠ x → j ≠ y → (c j).exist = false) ?_ rfl rfl ?_ _ (List.mem_finRange x) w
        ⟨rfl, hn, ch2, hn1, hx, hy, ho⟩]
    · rintro w1 ⟨k1, k2, c, k3, k4, k5, k6⟩
      refine ⟨_, c, k3, k4, fun j hj he hz => ?_⟩
      have e : j = y := by
        by_contra hne
        rw [k6 j hj hne] at he; cases he
      subst e
      rw [k5]
      refine ⟨objHash H (.leaf (i :: c1 ++ j :: r) u), ?_, k1, ?_, setChild c j { c j with hash := objHash H (.leaf (i :: c1 ++ j :: r) u) }, ?_, ?_, ?_, ?_⟩
      · simp only [updateHashes, TM.bind_eq, getNode, k1, gB, deref, k2]; rfl
      · show (if n = n + 1 then _ else w1.heap n) = _
        rw [if_neg (Nat.ne_of_lt (Nat.lt_succ_self n))]; exact k2
      · show (if n + 1 = n + 1 then _ else _) = _
        rw [if_pos rfl]
      · rw [setChild, if_neg (Ne.symm hj)]; exact k4
      · rw [setChild, if_pos rfl]; exact k5
      · intro l hl hl2
        rw [setChild, if_neg hl2]; exact k6 l hl hl2
    · rintro w1 ⟨k1, -⟩
      simp only [updateHashes, TM.bind_eq, getNode, k1, gA]; rfl
  rw [updateHashes]
  simp only [TM.bind_eq, getNode, g0, deref, h0]
  rw [hashLoop_none (i := i) (c := ⟨i :: c1, zeroHash, true⟩) (fun w1 => w1 = w) ?_ rfl rfl ?_ _ (List.mem_finRange i) w rfl]
  · rintro w1 rfl
    exact ⟨_, ch, h0, hi, fun j hj he hz => absurd ⟨he, hz⟩ (hother j hj)⟩
  · rintro w1 rfl
    exact inner

/-- A tree whose root leads straight to an entry that is missing from the store: putting another key that begins with the same
four bits panics. -/
theorem orphan_panics {a b : Addr} {u : Bytes} {wg : World} {st : GoMap Ptr} {p0 : Ptr} {ch : Nib → Child} {i : Nib} {t : Nibbles}
    {h : Hash32} (hu : u ≠ []) (hab : a ≠ b) (hf : (Spec.nibbles a).head? = (Spec.nibbles b).head?)
    (hst : wg.store = .mem st) (hg0 : mget st [] = some p0) (hgA : mget st (keyNibs a) = none) (hgB : mget st (keyNibs b) = none)
    (hnx : p0 < wg.next) (hh0 : wg.heap p0 = .branch [] ch) (hit : keyNibs a = i :: t) (h4 : ch i = ⟨i :: t, h, true⟩)
    (h5 : ∀ j, j ≠ i → ¬ ((ch j).exist = true ∧ (ch j).hash = zeroHash)) : putEntry H b u wg = none := by
  rw [← keyNibs_eq, ← keyNibs_eq, hit] at hf
  obtain ⟨t', hit'⟩ : ∃ t', keyNibs b = i :: t' := by
    cases hb : keyNibs b with
    | nil => exact absurd hb (keyNibs_ne_nil b)
    | cons j t' => rw [hb] at hf; simp only [List.head?_cons, Option.some.injEq] at hf; exact ⟨t', by rw [hf]⟩
  have hne : keyNibs a ≠ keyNibs b := fun e => hab (keyNibs_inj e)
  have hlen : (keyNibs a).length = (keyNibs b).length := by rw [keyNibs_length, keyNibs_length]
  -- where the keys part
  obtain ⟨c1, x, s, y, r, hA, hB, hxy, hcp⟩ : ∃ c1 x s y r, keyNibs a = i :: c1 ++ x :: s ∧ keyNibs b = i :: c1 ++ y :: r ∧
      x ≠ y ∧ commonPrefix (keyNibs a) (keyNibs b) = i :: c1 := by
    obtain ⟨a', b', e1, e2, e3⟩ := commonPrefix_split (keyNibs a) (keyNibs b)
    have hc : commonPrefix (keyNibs a) (keyNibs b) = i :: commonPrefix t t' := by rw [hit, hit']; simp [commonPrefix]
    rw [hc] at e1 e2
    have hl : a'.length = b'.length := by
      have := hlen
      rw [e1, e2, List.length_append, List.length_append] at this
      omega
    rcases e3 with rfl | rfl | ⟨x, s, y, r, rfl, rfl, hxy⟩
    · have := List.eq_nil_of_length_eq_zero (l := b') (by rw [← hl]; rfl)
      subst this; exact absurd (e1.trans e2.symm) hne
    · have := List.eq_nil_of_length_eq_zero (l := a') (by rw [hl]; rfl)
      subst this; exact absurd (e1.trans e2.symm) hne
    · exact ⟨_, x, s, y, r, e1, e2, hxy, hc⟩
  have hcA : i :: c1 ≠ keyNibs a := by rw [hA]; simp
  have hcB : i :: c1 ≠ keyNibs b := by rw [hB]; simp
  have hpre : ¬ prefixOf (keyNibs a) (keyNibs b) = true := by
    rw [prefixOf_iff]
    exact fun h => hne (h.eq_of_length hlen)
  have hul : ¬ u.length = 0 := fun h => hu (List.length_eq_zero_iff.mp h)
  have hget : ∀ k, wg.store.get k = mget st k := fun k => by rw [hst]; rfl
  let ch2 := setChild (setChild (fun _ => Child.zero) x ⟨x :: s, zeroHash, true⟩) y ⟨y :: r, zeroHash, true⟩
  let wU : World :=
    { heap := fun q => if q = p0 then .branch [] (setChild ch i ⟨i :: c1, zeroHash, true⟩)
        else if q = wg.next + 1 then .branch (i :: c1) ch2 else if q = wg.next then .leaf (keyNibs b) u else wg.heap q,
      next := wg.next + 2, store := .mem (mput (mput st (keyNibs b) wg.next) (i :: c1) (wg.next + 1)) }
  have hupd : updateEntry b u wg = some (true, wU) := by
    have hbr0 : ∀ w : World, w.heap p0 = .branch [] ch → asBranch p0 w = some (([], ch), w) := fun w hw => by
      simp [asBranch, TM.bind_eq, deref, hw, Pure.pure, TM.pure]
    simp only [updateEntry, TM.bind_eq, getNode, hget, hgB, if_false, hul, maxDepth]
    rw [update]
    have hpre0 : ¬ ¬ prefixOf ([] : Nibbles) (keyNibs b) = true := by simp [prefixOf]
    rw [if_neg hpre0, if_neg (Ne.symm (keyNibs_ne_nil b))]
    simp only [TM.bind_eq, getNode, hget, hg0, hbr0 wg hh0, List.length_nil, List.drop_zero]
    rw [hit']
    simp only [h4, if_true, List.nil_append]
    rw [← hit, ← hit', update, if_pos hpre]
    simp only [TM.bind_eq, alloc, putNode, hst, Store.put, Option.map_some, hcp, sliceFrom, withChild]
    have hlA : (i :: c1).length ≤ (keyNibs a).length := by rw [hA]; simp
    have hlB : (i :: c1).length ≤ (keyNibs b).length := by rw [hB]; simp
    have hdA : (keyNibs a).drop (i :: c1).length = x :: s := by rw [hA, List.drop_left]
    have hdB : (keyNibs b).drop (i :: c1).length = y :: r := by rw [hB, List.drop_left]
    rw [if_pos hlA, hdA, if_pos hlB, hdB]
    have hz : p0 ≠ wg.next := Nat.ne_of_lt hnx
    have hz1 : p0 ≠ wg.next + 1 := Nat.ne_of_lt (Nat.lt_succ_of_lt hnx)
    simp only [Pure.pure, TM.pure, Option.map_some, invalidatePath, TM.bind_eq]
    rw [hbr0 _ (by simp only [if_neg hz, if_neg hz1]; exact hh0)]
    simp only [sliceFrom, List.length_nil, Nat.zero_le, if_true, List.drop_zero, Pure.pure, TM.pure, withChild, TM.bind_eq, write]
    rfl
  simp only [putEntry, TM.bind_eq, hupd]
  have hgU : ∀ k, wU.store.get k = if k = i :: c1 then some (wg.next + 1) else if k = keyNibs b then some wg.next
      else mget st k := by
    intro k
    show mget (mput (mput st (keyNibs b) wg.next) (i :: c1) (wg.next + 1)) k = _
    rw [mget_mput, mget_mput]
  have hnone : updateHashes H maxDepth [] wU = none := by
    refine missing_child (p0 := p0) (n := wg.next) (i := i) (x := x) (y := y) (c1 := c1) (s := s) (r := r) (u := u)
      (ch := setChild ch i ⟨i :: c1, zeroHash, true⟩) (ch2 := ch2) hxy ?_ ?_ ?_ ?_ ?_ ?_ ?_ ?_ ?_ ?_ ?_ ?_ 61
    · rw [hgU, if_neg (by simp), if_neg (Ne.symm (keyNibs_ne_nil b)), hg0]
    · rw [hgU, if_pos rfl]
    · rw [← hA, hgU, if_neg (Ne.symm hcA), if_neg hne, hgA]
    · rw [← hB, hgU, if_neg (Ne.symm hcB), if_pos rfl]
    · simp only [wU, if_true]
    · rw [← hB]
      simp only [wU]
      rw [if_neg (Nat.ne_of_gt hnx), if_neg (Nat.ne_of_lt (Nat.lt_succ_self _)), if_pos trivial]
    · simp only [wU]
      rw [if_neg (Nat.ne_of_gt (Nat.lt_succ_of_lt hnx)), if_pos trivial]
    · simp [setChild]
    · intro j hj; rw [setChild, if_neg hj]; exact h5 j hj
    · simp [ch2, setChild, hxy]
    · simp [ch2, setChild]
    · intro j hj hj2; simp [ch2, setChild, hj, hj2, Child.zero]
  rw [hnone]

/-- C129 is false of later puts: an entry put on an overlay over an empty tree and given up makes every later `PutEntry` of
another key that begins with the same four bits panic. -/
theorem C129_panics_violated (a b : Addr) (v u : Bytes) (hv : v ≠ []) (hu : u ≠ []) (hab : a ≠ b)
    (hf : (Spec.nibbles a).head? = (Spec.nibbles b).head?) : ∃ c w', putEntry H a v (onOverlay newWorld) = some (c, w') ∧
      putEntry H b u (giveUp newWorld.store w') = none := by
  obtain ⟨c, w', h1, h2, ch, i, t, h, hit, h3, h4, h5⟩ := left_slot (H := H) a v hv
  refine ⟨c, w', h1, ?_⟩
  refine orphan_panics (st := [([], 0)]) hu hab hf rfl rfl ?_ ?_ h2 h3 hit h4 fun j hj hc => ?_
  · simp [mget, Ne.symm (keyNibs_ne_nil a)]
  · simp [mget, Ne.symm (keyNibs_ne_nil b)]
  · rw [h5 j hj] at hc; cases hc.1

/-- Two keys that begin with the same four bits. -/
example : exA ≠ exB ∧ (Spec.nibbles exA).head? = (Spec.nibbles exB).head? := by decide

/-- Trees to which the other theorems apply: any entry put into a new tree. -/
example (a : Addr) (v : Bytes) : ∃ w, Reach H w (Spec.set (fun _ => []) a v) := by
  obtain ⟨b, w', h, -⟩ := putEntry_spec (newWorld_inv (H := H)) a v
  exact ⟨w', .put .fresh h⟩

end Nimiq.Tree
