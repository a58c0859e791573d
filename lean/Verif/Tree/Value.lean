import Verif.Tree.Model
/-!
# Pointer-free version of the tree algorithms and the simulation theorem (proof device, not part of the model)

`View` is what a store returns, dereferenced.  The `…V` functions run the algorithms of tree.go on views; they check
more than the code does (fail with `none` where a proof needs a fact).  The simulation theorems say: whenever the view
algorithm succeeds, the pointer program succeeds and ends in a state with the view algorithm's result.
-/
namespace Nimiq.Tree

/-- What `GetNode` returns, dereferenced. -/
abbrev View := Nibbles → Option NodeObj

def vset (V : View) (k : Nibbles) (o : NodeObj) : View := fun q => if q = k then some o else V q
def vdel (V : View) (k : Nibbles) : View := fun q => if q = k then none else V q

@[simp] theorem vset_self (V k o) : vset V k o k = some o := by simp [vset]
theorem vset_ne (V k o) {q} (h : q ≠ k) : vset V k o q = V q := by simp [vset, h]
@[simp] theorem vdel_self (V k) : vdel V k k = none := by simp [vdel]
theorem vdel_ne (V k) {q} (h : q ≠ k) : vdel V k q = V q := by simp [vdel, h]

/-- The view of a world. -/
def World.view (w : World) : View := fun k => (w.store.get k).map w.heap

/-! ## Map lemmas -/

theorem mget_mdel {V} (m : GoMap V) (k q : Nibbles) : mget (mdel m k) q = if q = k then none else mget m q := by
  unfold mget mdel
  induction m with
  | nil => simp
  | cons e m ih =>
    by_cases h : e.1 = k
    · simp only [h, ne_eq, not_true_eq_false, decide_false, Bool.false_eq_true, not_false_eq_true,
        List.filter_cons_of_neg, ih, List.find?_cons]
      by_cases hq : q = k
      · simp [hq]
      · simp [hq, Ne.symm hq]
    · simp only [ne_eq, h, not_false_eq_true, decide_true, List.filter_cons_of_pos, List.find?_cons]
      by_cases hq : e.1 = q
      · have : q ≠ k := fun e' => h (hq.trans e')
        simp [hq, this]
      · simp only [hq, decide_false]
        exact ih

theorem mget_mput {V} (m : GoMap V) (k q : Nibbles) (v : V) :
    mget (mput m k v) q = if q = k then some v else mget m q := by
  have h := mget_mdel m k q
  unfold mput
  by_cases hq : q = k
  · simp [mget, hq]
  · rw [if_neg hq] at h ⊢
    rw [← h]
    unfold mget
    simp only [List.find?_cons, Ne.symm hq, decide_false]

/-- No duplicate keys (the invariant that makes an association list a Go map). -/
def NodupKeys {V} (m : GoMap V) : Prop := (m.map (·.1)).Nodup

theorem NodupKeys.mdel {V} {m : GoMap V} (h : NodupKeys m) (k) : NodupKeys (Tree.mdel m k) :=
  List.Nodup.sublist (List.Sublist.map _ List.filter_sublist) h

theorem NodupKeys.mput {V} {m : GoMap V} (h : NodupKeys m) (k v) : NodupKeys (Tree.mput m k v) := by
  have := h.mdel k
  unfold NodupKeys Tree.mput at *
  rw [List.map_cons, List.nodup_cons]
  refine ⟨?_, this⟩
  simp [Tree.mdel]

/-- All overlay maps have been initialised (and all maps are maps). -/
def Store.Usable : Store → Prop
  | .mem nodes => NodupKeys nodes
  | .overlay lower diffs => lower.Usable ∧ ∃ d, diffs = some d ∧ NodupKeys d

theorem Store.put_spec (s : Store) (hs : s.Usable) (k : Nibbles) (p : Ptr) :
    ∃ s', s.put k p = some s' ∧ s'.Usable ∧ ∀ q, s'.get q = if q = k then some p else s.get q := by
  cases s with
  | mem nodes =>
    exact ⟨_, rfl, hs.mput _ _, fun q => by simp [Store.get, mget_mput]⟩
  | overlay lower diffs =>
    obtain ⟨h1, d, rfl, h2⟩ := hs
    refine ⟨_, rfl, ⟨h1, _, rfl, h2.mput _ _⟩, fun q => ?_⟩
    simp only [Store.get, Option.bind_some, mget_mput]
    by_cases h : q = k <;> simp [h]

theorem Store.del_spec (s : Store) (hs : s.Usable) (k : Nibbles) :
    ∃ s', s.del k = some s' ∧ s'.Usable ∧ ∀ q, s'.get q = if q = k then none else s.get q := by
  cases s with
  | mem nodes =>
    exact ⟨_, rfl, hs.mdel _, fun q => by simp [Store.get, mget_mdel]⟩
  | overlay lower diffs =>
    obtain ⟨h1, d, rfl, h2⟩ := hs
    refine ⟨_, rfl, ⟨h1, _, rfl, h2.mput _ _⟩, fun q => ?_⟩
    simp only [Store.get, Option.bind_some, mget_mput]
    by_cases h : q = k <;> simp [h]

/-! ## The simulation relation -/

/-- Usable store, allocated pointers, and no pointer visible under two paths. -/
structure WF (w : World) : Prop where
  usable : w.store.Usable
  alloc : ∀ {k p}, w.store.get k = some p → p < w.next
  inj : ∀ {k k' p}, w.store.get k = some p → w.store.get k' = some p → k = k'

/-- `w` is well-formed and shows the view `V`. -/
structure R (w : World) (V : View) : Prop extends WF w where
  view : ∀ k, w.view k = V k

/-- The pointer stack `ps` holds the nodes at the paths `ks`. -/
def PathOK (w : World) : List Ptr → List Nibbles → Prop
  | [], [] => True
  | p :: ps, k :: ks => w.store.get k = some p ∧ PathOK w ps ks
  | _, _ => False

theorem PathOK.congr {w w' : World} {ps ks} (h : PathOK w ps ks) (hs : ∀ k ∈ ks, w'.store.get k = w.store.get k) :
    PathOK w' ps ks := by
  induction ps generalizing ks with
  | nil => cases ks <;> simp_all [PathOK]
  | cons p ps ih =>
    cases ks with
    | nil => exact h
    | cons k ks =>
      exact ⟨(hs k (by simp)).trans h.1, ih h.2 (fun k hk => hs k (by simp [hk]))⟩

theorem R.heap {w V k p} (h : R w V) (hp : w.store.get k = some p) : V k = some (w.heap p) := by
  rw [← h.view]; simp [World.view, hp]

theorem R.get {w V k o} (h : R w V) (ho : V k = some o) : ∃ p, w.store.get k = some p ∧ w.heap p = o := by
  rw [← h.view] at ho
  simp only [World.view, Option.map_eq_some_iff] at ho
  exact ho

theorem R.get_none {w V k} (h : R w V) (ho : V k = none) : w.store.get k = none := by
  rw [← h.view] at ho
  simpa [World.view] using ho

theorem R.write {w V k p} (h : R w V) (hp : w.store.get k = some p) (o : NodeObj) :
    R { w with heap := fun q => if q = p then o else w.heap q } (vset V k o) := by
  refine ⟨⟨h.usable, h.alloc, h.inj⟩, ?_⟩
  intro q
  simp only [World.view, vset]
  by_cases hq : q = k
  · subst hq; simp [hp]
  · rw [if_neg hq, ← h.view]
    simp only [World.view]
    cases hg : w.store.get q with
    | none => rfl
    | some p' =>
      have : p' ≠ p := fun e => hq (h.inj (by rw [hg, e]) hp)
      simp [this]

/-- The state after allocating `o` and putting it at `k`. -/
theorem R.putNew {w V} (h : R w V) (k : Nibbles) (o : NodeObj) :
    ∃ w', (do let p ← Tree.alloc o; putNode k p; return p) w = some (w.next, w') ∧ R w' (vset V k o) ∧
      w'.store.get k = some w.next ∧ ∀ q, q ≠ k → w'.store.get q = w.store.get q := by
  obtain ⟨s', h1, h2, h3⟩ := Store.put_spec w.store h.usable k w.next
  refine ⟨{ heap := fun p => if p = w.next then o else w.heap p, next := w.next + 1, store := s' }, ?_, ?_, ?_, ?_⟩
  · simp [Bind.bind, TM.bind, Tree.alloc, putNode, h1, Pure.pure, TM.pure]
  · refine ⟨⟨h2, ?_, ?_⟩, ?_⟩
    · intro q p hq
      simp only [h3] at hq
      split at hq
      · simp at hq; simp [← hq]
      · exact Nat.lt_succ_of_lt (h.alloc hq)
    · intro q q' p hq hq'
      simp only [h3] at hq hq'
      split at hq <;> split at hq'
      · simp_all
      · simp only [Option.some.injEq] at hq
        exact absurd (h.alloc hq') (by rw [hq]; exact Nat.lt_irrefl _)
      · simp only [Option.some.injEq] at hq'
        exact absurd (h.alloc hq) (by rw [hq']; exact Nat.lt_irrefl _)
      · exact h.inj hq hq'
    · intro q
      simp only [World.view, h3, vset]
      by_cases hq : q = k
      · simp [hq]
      · rw [if_neg hq, if_neg hq, ← h.view]
        simp only [World.view]
        cases hg : w.store.get q with
        | none => rfl
        | some p' =>
          have : p' ≠ w.next := Nat.ne_of_lt (h.alloc hg)
          simp [this]
  · simp [h3]
  · intro q hq; simp [h3, hq]

theorem R.putSame {w V k p} (h : R w V) (hp : w.store.get k = some p) :
    ∃ w', putNode k p w = some ((), w') ∧ R w' V ∧ (∀ q, w'.store.get q = w.store.get q) ∧ w'.heap = w.heap := by
  obtain ⟨s', h1, h2, h3⟩ := Store.put_spec w.store h.usable k p
  have h4 : ∀ q, s'.get q = w.store.get q := by
    intro q; rw [h3]; split
    · rename_i e; rw [e, hp]
    · rfl
  refine ⟨{ w with store := s' }, by simp [putNode, h1], ⟨⟨h2, ?_, ?_⟩, ?_⟩, h4, rfl⟩
  · intro q p' hq; rw [h4] at hq; exact h.alloc hq
  · intro q q' p' hq hq'; rw [h4] at hq hq'; exact h.inj hq hq'
  · intro q; rw [← h.view]; simp [World.view, h4]

theorem R.del {w V} (h : R w V) (k : Nibbles) :
    ∃ w', delNode k w = some ((), w') ∧ R w' (vdel V k) ∧ (∀ q, q ≠ k → w'.store.get q = w.store.get q) := by
  obtain ⟨s', h1, h2, h3⟩ := Store.del_spec w.store h.usable k
  refine ⟨{ w with store := s' }, by simp [delNode, h1], ⟨⟨h2, ?_, ?_⟩, ?_⟩, fun q hq => by simp [h3, hq]⟩
  · intro q p' hq; simp only [h3] at hq
    split at hq
    · simp at hq
    · exact h.alloc hq
  · intro q q' p' hq hq'
    simp only [h3] at hq hq'
    split at hq
    · simp at hq
    · split at hq'
      · simp at hq'
      · exact h.inj hq hq'
  · intro q
    simp only [World.view, h3, vdel]
    split
    · rfl
    · rw [← h.view]; rfl

/-! ## Algorithms on views -/

def invV : Nibbles → List Nibbles → View → Option View
  | _, [], V => some V
  | cur, k :: ks, V =>
    match V k with
    | some (.branch p ch) =>
      if p = k ∧ k.length ≤ cur.length then
        match cur.drop k.length with
        | [] => none
        | i :: s => invV k ks (vset V k (.branch k (setChild ch i ⟨i :: s, zeroHash, true⟩)))
      else none
    | _ => none

def pruneV : Nibbles → List Nibbles → View → Option View
  | _, [], V => some V
  | cur, k :: ks, V =>
    match V k with
    | some (.branch p ch) =>
      if p = k ∧ k ∉ ks then
        match cur.drop k.length with
        | [] => none
        | i :: _ =>
          let ch' := setChild ch i { ch i with exist := false }
          let V := vset V k (.branch k ch')
          match existing ch' with
          | [c] => if k.length > 0 then invV (k ++ c.suffix) ks (vdel V k) else invV k ks V
          | [] => if k.length = 0 then invV k ks V else pruneV k ks V
          | _ => invV k ks V
      else none
    | _ => none

def updV : Nat → Nibbles → Nibbles → Bytes → List Nibbles → View → Option View
  | 0, _, _, _, _, _ => none
  | fuel + 1, nodeP, q, value, ks, V =>
    if ¬ prefixOf nodeP q then
      let par := commonPrefix nodeP q
      if q ∉ ks ∧ par ∉ ks ∧ par.length ≤ nodeP.length ∧ par.length ≤ q.length then
        match nodeP.drop par.length, q.drop par.length with
        | i :: s, j :: r =>
          let ch := setChild (setChild (fun _ => Child.zero) i ⟨i :: s, zeroHash, true⟩) j ⟨j :: r, zeroHash, true⟩
          invV par ks (vset (vset V q (.leaf q value)) par (.branch par ch))
        | _, _ => none
      else none
    else if nodeP = q then
      if nodeP ∉ ks then
        if value.length = 0 then pruneV nodeP ks (vdel V nodeP)
        else invV nodeP ks (vset V nodeP (.leaf nodeP value))
      else none
    else
      match V nodeP with
      | some (.branch p ch) =>
        if p = nodeP ∧ nodeP.length ≤ q.length ∧ q ∉ ks ∧ q ≠ nodeP then
          match q.drop nodeP.length with
          | [] => none
          | i :: s =>
            if (ch i).exist then updV fuel (nodeP ++ (ch i).suffix) q value (nodeP :: ks) V
            else invV nodeP ks (vset (vset V q (.leaf q value)) nodeP
                  (.branch nodeP (setChild ch i ⟨i :: s, zeroHash, true⟩)))
        else none
      | _ => none

def hashLoopV (rec : Nibbles → View → Option (Hash32 × View)) (k : Nibbles) : List Nib → View → Option View
  | [], V => some V
  | i :: is, V =>
    match V k with
    | some (.branch _ ch) =>
      if (ch i).exist ∧ (ch i).hash = zeroHash then
        match rec (k ++ (ch i).suffix) V with
        | none => none
        | some (h, V) =>
          match V k with
          | some (.branch p ch) => hashLoopV rec k is (vset V k (.branch p (setChild ch i { ch i with hash := h })))
          | _ => none
      else hashLoopV rec k is V
    | _ => none

def updHV (H : Bytes → Hash32) : Nat → Nibbles → View → Option (Hash32 × View)
  | 0, _, _ => none
  | fuel + 1, k, V =>
    match V k with
    | none => none
    | some (.leaf p v) => some (objHash H (.leaf p v), V)
    | some (.branch _ _) =>
      match hashLoopV (updHV H fuel) k (List.finRange 16) V with
      | none => none
      | some V =>
        match V k with
        | some (.branch p ch) => if p = k then some (objHash H (.branch p ch), V) else none
        | _ => none

/-! ## Simulation -/

theorem TM.bind_eq {α β} (m : TM α) (f : α → TM β) (w : World) :
    (m >>= f) w = match m w with | none => none | some (a, w) => f a w := rfl

theorem asBranch_eq {w V k p o} (h : R w V) (hp : w.store.get k = some p) (ho : V k = some o) :
    asBranch p w = match o with
      | .branch pfx ch => some ((pfx, ch), w)
      | .leaf _ _ => none := by
  have : w.heap p = o := by
    have := h.heap hp; rw [ho] at this; simpa using this.symm
  simp only [asBranch, TM.bind_eq, deref, this]
  cases o <;> rfl

theorem sim_inv {w : World} {V V' : View} {ps : List Ptr} {ks : List Nibbles} {cur : Nibbles}
    (h : R w V) (hp : PathOK w ps ks) (hv : invV cur ks V = some V') :
    ∃ w', invalidatePath cur ps w = some ((), w') ∧ R w' V' := by
  induction ks generalizing w V ps cur with
  | nil =>
    cases ps with
    | nil => simp only [invV, Option.some.injEq] at hv; subst hv; exact ⟨w, rfl, h⟩
    | cons p ps => exact absurd hp (by simp [PathOK])
  | cons k ks ih =>
    cases ps with
    | nil => exact absurd hp (by simp [PathOK])
    | cons p ps =>
      obtain ⟨hp1, hp2⟩ := hp
      simp only [invV] at hv
      split at hv
      next pp ch ho =>
        split at hv
        next hc =>
          obtain ⟨rfl, hlen⟩ := hc
          split at hv
          · simp at hv
          next i s hd =>
            have hw := h.write hp1 (.branch pp (setChild ch i ⟨i :: s, zeroHash, true⟩))
            obtain ⟨w', e1, e2⟩ := ih (ps := ps) hw (hp2.congr (by simp)) hv
            refine ⟨w', ?_, e2⟩
            rw [← e1]
            simp only [invalidatePath, TM.bind_eq, asBranch_eq h hp1 ho, sliceFrom, if_pos hlen, Pure.pure, TM.pure,
              hd, withChild, write]
        · simp at hv
      · simp at hv

/-- What `prune` does after removing the child. -/
def pruneCont (pp : Nibbles) (p : Ptr) (ps : List Ptr) (ex : List Child) : TM Unit :=
  match ex with
  | [c] => if pp.length > 0 then (do delNode pp; invalidatePath (pp ++ c.suffix) ps)
           else (do putNode pp p; invalidatePath pp ps)
  | [] => if pp.length = 0 then (do putNode pp p; invalidatePath pp ps) else prune pp ps
  | _ => (do putNode pp p; invalidatePath pp ps)

theorem sim_prune {w : World} {V V' : View} {ps : List Ptr} {ks : List Nibbles} {cur : Nibbles}
    (h : R w V) (hp : PathOK w ps ks) (hv : pruneV cur ks V = some V') :
    ∃ w', prune cur ps w = some ((), w') ∧ R w' V' := by
  induction ks generalizing w V ps cur with
  | nil =>
    cases ps with
    | nil => simp only [pruneV, Option.some.injEq] at hv; subst hv; exact ⟨w, rfl, h⟩
    | cons p ps => exact absurd hp (by simp [PathOK])
  | cons k ks ih =>
    cases ps with
    | nil => exact absurd hp (by simp [PathOK])
    | cons p ps =>
      obtain ⟨hp1, hp2⟩ := hp
      simp only [pruneV] at hv
      split at hv
      next pp ch ho =>
        split at hv
        next hc =>
          obtain ⟨rfl, hnot⟩ := hc
          split at hv
          · simp at hv
          next i s hd =>
            have hw := h.write hp1 (.branch pp (setChild ch i { ch i with exist := false }))
            generalize hch : setChild ch i { ch i with exist := false } = ch' at hv hw
            generalize hw0 : ({ w with heap := fun q => if q = p then NodeObj.branch pp ch' else w.heap q } : World) = w0 at hw
            have hst : w0.store = w.store := by rw [← hw0]
            have hp1' : w0.store.get pp = some p := by rw [hst]; exact hp1
            have start : prune cur (p :: ps) w = pruneCont pp p ps (existing ch') w0 := by
              rw [prune]
              simp only [TM.bind_eq, asBranch_eq h hp1 ho, hd, write, hch, hw0]
              unfold pruneCont
              split <;> rfl
            rw [start]
            have keep : ∀ V', invV pp ks (vset V pp (.branch pp ch')) = some V' →
                ∃ w', (do putNode pp p; invalidatePath pp ps : TM Unit) w0 = some ((), w') ∧ R w' V' := by
              intro V' hv'
              obtain ⟨w1, a1, a2, a3, a4⟩ := hw.putSame hp1'
              obtain ⟨w2, b1, b2⟩ := sim_inv (ps := ps) a2 ((hp2.congr (w' := w0) (fun q _ => by rw [hst])).congr (fun q _ => a3 q)) hv'
              exact ⟨w2, by simp only [TM.bind_eq, a1, b1], b2⟩
            generalize existing ch' = ex at hv
            match ex, hv with
            | [c], hv =>
              simp only [pruneCont] at hv ⊢
              by_cases hl : pp.length > 0
              · rw [if_pos hl] at hv ⊢
                obtain ⟨w1, a1, a2, a3⟩ := hw.del pp
                obtain ⟨w2, b1, b2⟩ := sim_inv (ps := ps) a2
                  ((hp2.congr (w' := w0) (fun q _ => by rw [hst])).congr (fun q hq => a3 q (fun e => hnot (e ▸ hq)))) hv
                exact ⟨w2, by simp only [TM.bind_eq, a1, b1], b2⟩
              · rw [if_neg hl] at hv ⊢
                exact keep _ hv
            | [], hv =>
              simp only [pruneCont] at hv ⊢
              by_cases hl : pp.length = 0
              · rw [if_pos hl] at hv ⊢
                exact keep _ hv
              · rw [if_neg hl] at hv ⊢
                exact ih (ps := ps) hw (hp2.congr (fun q _ => by rw [hst])) hv
            | c1 :: c2 :: cs, hv =>
              simp only [pruneCont] at hv ⊢
              exact keep _ hv
        · simp at hv
      · simp at hv

theorem alloc_put {w V} (h : R w V) (k : Nibbles) (o : NodeObj) :
    ∃ w1 w', Tree.alloc o w = some (w.next, w1) ∧ putNode k w.next w1 = some ((), w') ∧ R w' (vset V k o) ∧
      w'.store.get k = some w.next ∧ ∀ q, q ≠ k → w'.store.get q = w.store.get q := by
  obtain ⟨w', h1, h2, h3, h4⟩ := h.putNew k o
  refine ⟨_, w', rfl, ?_, h2, h3, h4⟩
  simp only [TM.bind_eq, Tree.alloc] at h1
  split at h1
  · simp at h1
  next e => rw [e]; simp only [Pure.pure, TM.pure, Option.some.injEq, Prod.mk.injEq] at h1; simp [h1.2]

theorem sim_upd {fuel : Nat} {w : World} {V V' : View} {ps : List Ptr} {ks : List Nibbles} {nodeP q : Nibbles}
    {value : Bytes} (h : R w V) (hp : PathOK w ps ks) (hv : updV fuel nodeP q value ks V = some V') :
    ∃ w', update fuel nodeP q value ps w = some ((), w') ∧ R w' V' := by
  induction fuel generalizing w V ps ks nodeP with
  | zero => simp [updV] at hv
  | succ fuel ih =>
    unfold updV at hv
    unfold update
    by_cases h1 : prefixOf nodeP q = true
    · simp only [h1, not_true_eq_false, if_false] at hv ⊢
      by_cases h2 : nodeP = q
      · simp only [h2, if_true] at hv ⊢
        subst h2
        by_cases h3 : nodeP ∈ ks
        · simp [h3] at hv
        · simp only [h3, not_false_eq_true, if_true] at hv
          by_cases h4 : value.length = 0
          · rw [if_pos h4] at hv ⊢
            obtain ⟨w1, a1, a2, a3⟩ := h.del nodeP
            obtain ⟨w2, b1, b2⟩ := sim_prune (ps := ps) a2 (hp.congr (fun q hq => a3 q (fun e => h3 (e ▸ hq)))) hv
            exact ⟨w2, by simp only [TM.bind_eq, a1, b1], b2⟩
          · rw [if_neg h4] at hv ⊢
            obtain ⟨w1, w2, a1, a2, a3, a4, a5⟩ := alloc_put h nodeP (.leaf nodeP value)
            obtain ⟨w3, b1, b2⟩ := sim_inv (ps := ps) a3 (hp.congr (fun q hq => a5 q (fun e => h3 (e ▸ hq)))) hv
            exact ⟨w3, by simp only [TM.bind_eq, a1, a2, b1], b2⟩
      · simp only [h2, if_false] at hv ⊢
        split at hv
        next pp ch ho =>
          split at hv
          next hc =>
            obtain ⟨rfl, hlen, hqk, hqn⟩ := hc
            obtain ⟨p, hg, hh⟩ := h.get ho
            split at hv
            · simp at hv
            next i s hd =>
              by_cases h3 : (ch i).exist = true
              · rw [if_pos h3] at hv
                obtain ⟨w1, a1, a2⟩ := ih (ps := p :: ps) (ks := pp :: ks) h ⟨hg, hp⟩ hv
                refine ⟨w1, ?_, a2⟩
                simp only [TM.bind_eq, getNode, hg, asBranch_eq h hg ho, hd]
                simp only [h3, if_true, a1]
              · rw [if_neg h3] at hv
                obtain ⟨w1, w2, a1, a2, a3, a4, a5⟩ := alloc_put h q (.leaf q value)
                have hg2 : w2.store.get pp = some p := by rw [a5 pp (Ne.symm hqn)]; exact hg
                have ho2 : vset V q (.leaf q value) pp = some (.branch pp ch) := by rw [vset_ne _ _ _ (Ne.symm hqn), ho]
                have hw := a3.write hg2 (.branch pp (setChild ch i ⟨i :: s, zeroHash, true⟩))
                obtain ⟨w3, c1, c2, c3, c4⟩ := hw.putSame (k := pp) (p := p) hg2
                obtain ⟨w4, b1, b2⟩ := sim_inv (ps := ps) c2
                  ((hp.congr (w' := w2) (fun k hk => a5 k (fun e => hqk (e ▸ hk)))).congr (fun k _ => c3 k)) hv
                refine ⟨w4, ?_, b2⟩
                simp only [TM.bind_eq, getNode, hg, asBranch_eq h hg ho, hd]
                simp only [h3, if_false, TM.bind_eq, a1, a2, asBranch_eq a3 hg2 ho2, sliceFrom, if_pos hlen, Pure.pure,
                  TM.pure, withChild, hd, write, c1, b1, Bool.false_eq_true]
          · simp at hv
        · simp at hv
    · simp only [h1, not_false_eq_true, if_true, Bool.false_eq_true] at hv ⊢
      split at hv
      next hc =>
        obtain ⟨hqk, hpk, hl1, hl2⟩ := hc
        split at hv
        next i s j r hd1 hd2 =>
          obtain ⟨w1, w2, a1, a2, a3, a4, a5⟩ := alloc_put h q (.leaf q value)
          obtain ⟨w3, w4, b1, b2, b3, b4, b5⟩ := alloc_put a3 (commonPrefix nodeP q) (.branch (commonPrefix nodeP q)
            (setChild (setChild (fun _ => Child.zero) i ⟨i :: s, zeroHash, true⟩) j ⟨j :: r, zeroHash, true⟩))
          obtain ⟨w5, c1, c2⟩ := sim_inv (ps := ps) b3
            ((hp.congr (fun k hk => a5 k (fun e => hqk (e ▸ hk)))).congr (fun k hk => b5 k (fun e => hpk (e ▸ hk)))) hv
          refine ⟨w5, ?_, c2⟩
          simp only [TM.bind_eq, a1, a2, sliceFrom, if_pos hl1, if_pos hl2, Pure.pure, TM.pure, withChild, hd1, hd2, b1,
            b2, c1]
        · simp at hv
      · simp at hv

theorem sim_hashLoop {rec : Nibbles → TM Hash32} {recV : Nibbles → View → Option (Hash32 × View)}
    (hrec : ∀ {w V k hh V'}, R w V → recV k V = some (hh, V') →
      ∃ w', rec k w = some (hh, w') ∧ R w' V' ∧ ∀ q, w'.store.get q = w.store.get q)
    {w : World} {V V' : View} {k : Nibbles} {p : Ptr} {is : List Nib}
    (h : R w V) (hp : w.store.get k = some p) (hv : hashLoopV recV k is V = some V') :
    ∃ w', hashLoop rec k p is w = some ((), w') ∧ R w' V' ∧ ∀ q, w'.store.get q = w.store.get q := by
  induction is generalizing w V with
  | nil => simp only [hashLoopV, Option.some.injEq] at hv; subst hv; exact ⟨w, rfl, h, fun _ => rfl⟩
  | cons i is ih =>
    simp only [hashLoopV] at hv
    split at hv
    next pp ch ho =>
      by_cases hc : (ch i).exist = true ∧ (ch i).hash = zeroHash
      · rw [if_pos hc] at hv
        split at hv
        · simp at hv
        next hh V1 hr =>
          obtain ⟨w1, a1, a2, a3⟩ := hrec h hr
          split at hv
          next pp2 ch2 ho2 =>
            have hg2 : w1.store.get k = some p := by rw [a3]; exact hp
            obtain ⟨w2, b1, b2, b3⟩ := ih (a2.write hg2 (.branch pp2 (setChild ch2 i { ch2 i with hash := hh }))) hg2 hv
            refine ⟨w2, ?_, b2, fun q => (b3 q).trans (a3 q)⟩
            rw [hashLoop]
            simp only [TM.bind_eq, asBranch_eq h hp ho]
            simp only [hc, and_self, if_true, TM.bind_eq, a1, asBranch_eq a2 hg2 ho2, write, b1]
          · simp at hv
      · rw [if_neg hc] at hv
        obtain ⟨w2, b1, b2, b3⟩ := ih h hp hv
        refine ⟨w2, ?_, b2, b3⟩
        rw [hashLoop]
        simp only [TM.bind_eq, asBranch_eq h hp ho]
        rw [if_neg hc, b1]
    · simp at hv

theorem sim_updH {H : Bytes → Hash32} {fuel : Nat} {w : World} {V V' : View} {k : Nibbles} {hh : Hash32}
    (h : R w V) (hv : updHV H fuel k V = some (hh, V')) :
    ∃ w', updateHashes H fuel k w = some (hh, w') ∧ R w' V' ∧ ∀ q, w'.store.get q = w.store.get q := by
  induction fuel generalizing w V V' k hh with
  | zero => simp [updHV] at hv
  | succ fuel ih =>
    unfold updHV at hv
    unfold updateHashes
    split at hv
    · simp at hv
    next p v ho =>
      obtain ⟨ptr, hg, hh'⟩ := h.get ho
      simp only [Option.some.injEq, Prod.mk.injEq] at hv
      obtain ⟨rfl, rfl⟩ := hv
      refine ⟨w, ?_, h, fun _ => rfl⟩
      simp only [TM.bind_eq, getNode, hg, deref, hh']
      rfl
    next pp ch ho =>
      obtain ⟨ptr, hg, hh'⟩ := h.get ho
      split at hv
      · simp at hv
      next V1 hl =>
        obtain ⟨w1, a1, a2, a3⟩ := sim_hashLoop (rec := updateHashes H fuel) (fun hR hr => ih hR hr) h hg hl
        split at hv
        next p2 ch2 ho2 =>
          split at hv
          next he =>
            subst he
            simp only [Option.some.injEq, Prod.mk.injEq] at hv
            obtain ⟨rfl, rfl⟩ := hv
            have hg2 : w1.store.get p2 = some ptr := by rw [a3]; exact hg
            obtain ⟨w2, b1, b2, b3, b4⟩ := a2.putSame hg2
            refine ⟨w2, ?_, b2, fun q => (b3 q).trans (a3 q)⟩
            simp only [TM.bind_eq, getNode, hg, deref, hh', a1, asBranch_eq a2 hg2 ho2, b1]
            rfl
          · simp at hv
        · simp at hv

end Nimiq.Tree
