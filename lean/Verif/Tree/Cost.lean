import Verif.Tree.Props
/-!
# How much `PutEntry` hashes (C97)

`hashLoopL`, `updateHashesL` and `putEntryL` are the functions of `Model.lean` with a log of the strings given to the hash
function. `putEntryL_erase` says that the log changes nothing, `putEntryL_complete` that it is complete: the result depends
on the hash function only at the logged strings.
-/
namespace Nimiq.Tree

/-- tree.go:197-204, as `hashLoop`, collecting the strings hashed by the recursive calls -/
def hashLoopL (rec : Nibbles → TM (Hash32 × List Bytes)) (pfx : Nibbles) (p : Ptr) : List Nib → TM (List Bytes)
  | [] => return []
  | i :: is => do
    let (_, ch) ← asBranch p
    if (ch i).exist ∧ (ch i).hash = zeroHash then
      let (h, l) ← rec (pfx ++ (ch i).suffix)
      let (npfx, ch) ← asBranch p
      write p (.branch npfx (setChild ch i { ch i with hash := h }))
      let l' ← hashLoopL rec pfx p is
      return l ++ l'
    else
      hashLoopL rec pfx p is

/-- tree.go:191-210, as `updateHashes`, with the strings hashed -/
def updateHashesL (H : Bytes → Hash32) : Nat → Nibbles → TM (Hash32 × List Bytes)
  | 0, _ => TM.panic
  | fuel + 1, pfx => do
    match ← getNode pfx with
    | none => TM.panic
    | some p =>
      match ← deref p with
      | .leaf lp v => return (H (leafBytes lp v), [leafBytes lp v])
      | .branch _ _ =>
        let l ← hashLoopL (updateHashesL H fuel) pfx p (List.finRange 16)
        let (npfx, ch) ← asBranch p
        putNode npfx p
        return (H (branchBytes npfx ch), l ++ [branchBytes npfx ch])

/-- tree.go:42-46, as `putEntry`, with the strings hashed -/
def putEntryL (H : Bytes → Hash32) (key : Addr) (value : Bytes) : TM (Bool × List Bytes) := do
  let changed ← updateEntry key value
  let (_, l) ← updateHashesL H maxDepth []
  return (changed, l)

variable {H H' : Bytes → Hash32}

/-! ## The log changes nothing -/

theorem hashLoopL_erase {recL : Nibbles → TM (Hash32 × List Bytes)} {rec : Nibbles → TM Hash32}
    (hr : ∀ k w, rec k w = (recL k w).map fun r => (r.1.1, r.2)) (k : Nibbles) (p : Ptr) :
    ∀ (is : List Nib) (w : World), hashLoop rec k p is w = (hashLoopL recL k p is w).map fun r => ((), r.2) := by
  intro is
  induction is with
  | nil => intro w; rfl
  | cons i is ih =>
    intro w
    rw [hashLoop, hashLoopL]
    simp only [TM.bind_eq]
    cases ha : asBranch p w with
    | none => rfl
    | some r =>
      obtain ⟨⟨pp, ch⟩, w1⟩ := r
      simp only []
      by_cases hc : (ch i).exist = true ∧ (ch i).hash = zeroHash
      · simp only [if_pos hc, TM.bind_eq, hr]
        cases hb : recL (k ++ (ch i).suffix) w1 with
        | none => rfl
        | some r =>
          obtain ⟨⟨h, l⟩, w2⟩ := r
          simp only [Option.map_some]
          cases hd : asBranch p w2 with
          | none => rfl
          | some r =>
            obtain ⟨⟨pp2, ch2⟩, w3⟩ := r
            simp only [write, ih]
            cases hashLoopL recL k p is _ <;> rfl
      · simp only [if_neg hc, ih]

theorem updateHashesL_erase : ∀ (fuel : Nat) (k : Nibbles) (w : World),
    updateHashes H fuel k w = (updateHashesL H fuel k w).map fun r => (r.1.1, r.2) := by
  intro fuel
  induction fuel with
  | zero => intro k w; rfl
  | succ fuel ih =>
    intro k w
    rw [updateHashes, updateHashesL]
    simp only [TM.bind_eq, getNode]
    cases hg : w.store.get k with
    | none => rfl
    | some p =>
      simp only [TM.bind_eq, deref]
      cases hp : w.heap p with
      | leaf lp v => rfl
      | branch bp bch =>
        simp only [TM.bind_eq, hashLoopL_erase ih]
        cases hl : hashLoopL (updateHashesL H fuel) k p (List.finRange 16) w with
        | none => rfl
        | some r =>
          obtain ⟨l, w1⟩ := r
          simp only [Option.map_some]
          cases asBranch p w1 with
          | none => rfl
          | some r =>
            obtain ⟨⟨np, ch⟩, w2⟩ := r
            simp only []
            cases putNode np p w2 <;> rfl

theorem putEntryL_erase (a : Addr) (v : Bytes) (w : World) :
    putEntry H a v w = (putEntryL H a v w).map fun r => (r.1.1, r.2) := by
  simp only [putEntry, putEntryL, TM.bind_eq, updateHashesL_erase]
  cases updateEntry a v w with
  | none => rfl
  | some r =>
    simp only []
    cases updateHashesL H maxDepth [] r.2 <;> rfl

/-! ## The log is complete -/

theorem hashLoopL_complete {rec rec' : Nibbles → TM (Hash32 × List Bytes)}
    (hr : ∀ k w h l w', rec k w = some ((h, l), w') → (∀ x ∈ l, H' x = H x) → rec' k w = some ((h, l), w'))
    (k : Nibbles) (p : Ptr) : ∀ (is : List Nib) (w : World) (l : List Bytes) (w' : World),
    hashLoopL rec k p is w = some (l, w') → (∀ x ∈ l, H' x = H x) → hashLoopL rec' k p is w = some (l, w') := by
  intro is
  induction is with
  | nil => intro w l w' h _; exact h
  | cons i is ih =>
    intro w l w' h hl
    rw [hashLoopL] at h ⊢
    simp only [TM.bind_eq] at h ⊢
    cases ha : asBranch p w with
    | none => simp [ha] at h
    | some r =>
      obtain ⟨⟨pp, ch⟩, w1⟩ := r
      simp only [ha] at h ⊢
      by_cases hc : (ch i).exist = true ∧ (ch i).hash = zeroHash
      · simp only [if_pos hc, TM.bind_eq] at h ⊢
        cases hb : rec (k ++ (ch i).suffix) w1 with
        | none => simp [hb] at h
        | some r =>
          obtain ⟨⟨hh, l1⟩, w2⟩ := r
          simp only [hb] at h
          cases hd : asBranch p w2 with
          | none => simp [hd] at h
          | some r =>
            obtain ⟨⟨pp2, ch2⟩, w3⟩ := r
            simp only [hd, write] at h
            split at h
            · simp at h
            next l2 w4 he =>
              simp only [Pure.pure, TM.pure, Option.some.injEq, Prod.mk.injEq] at h
              obtain ⟨rfl, rfl⟩ := h
              have e1 := hr _ _ _ _ _ hb (fun x hx => hl x (by simp [hx]))
              have e2 := ih _ _ _ he (fun x hx => hl x (by simp [hx]))
              simp only [e1, hd, write, e2]
              rfl
      · simp only [if_neg hc] at h ⊢
        exact ih _ _ _ h hl

theorem updateHashesL_complete : ∀ (fuel : Nat) (k : Nibbles) (w : World) (h : Hash32) (l : List Bytes) (w' : World),
    updateHashesL H fuel k w = some ((h, l), w') → (∀ x ∈ l, H' x = H x) →
    updateHashesL H' fuel k w = some ((h, l), w') := by
  intro fuel
  induction fuel with
  | zero => intro k w h l w' he; simp [updateHashesL, TM.panic] at he
  | succ fuel ih =>
    intro k w h l w' he hl
    rw [updateHashesL] at he ⊢
    simp only [TM.bind_eq, getNode] at he ⊢
    cases hg : w.store.get k with
    | none => simp [hg, TM.panic] at he
    | some p =>
      simp only [hg, TM.bind_eq, deref] at he ⊢
      cases hp : w.heap p with
      | leaf lp v =>
        simp only [hp, Pure.pure, TM.pure, Option.some.injEq, Prod.mk.injEq] at he ⊢
        obtain ⟨⟨rfl, rfl⟩, rfl⟩ := he
        rw [hl _ (by simp)]
        exact ⟨⟨rfl, rfl⟩, rfl⟩
      | branch bp bch =>
        simp only [hp, TM.bind_eq] at he ⊢
        cases hlo : hashLoopL (updateHashesL H fuel) k p (List.finRange 16) w with
        | none => simp [hlo] at he
        | some r =>
          obtain ⟨l1, w1⟩ := r
          simp only [hlo] at he
          cases hab : asBranch p w1 with
          | none => simp [hab] at he
          | some r =>
            obtain ⟨⟨np, ch⟩, w2⟩ := r
            simp only [hab] at he
            cases hpu : putNode np p w2 with
            | none => simp [hpu] at he
            | some r =>
              simp only [hpu, Pure.pure, TM.pure, Option.some.injEq, Prod.mk.injEq] at he
              obtain ⟨⟨rfl, rfl⟩, rfl⟩ := he
              have e := hashLoopL_complete (H := H) (H' := H') ih k p _ _ _ _ hlo (fun x hx => hl x (by simp [hx]))
              simp only [e, hab, hpu, hl _ (show branchBytes np ch ∈ l1 ++ [branchBytes np ch] by simp)]
              rfl

theorem putEntryL_complete {a : Addr} {v : Bytes} {w w' : World} {b : Bool} {l : List Bytes}
    (h : putEntryL H a v w = some ((b, l), w')) (hl : ∀ x ∈ l, H' x = H x) :
    putEntryL H' a v w = some ((b, l), w') := by
  simp only [putEntryL, TM.bind_eq] at h ⊢
  cases hu : updateEntry a v w with
  | none => simp [hu] at h
  | some r =>
    simp only [hu] at h ⊢
    cases hq : updateHashesL H maxDepth [] r.2 with
    | none => simp [hq] at h
    | some r2 =>
      obtain ⟨⟨hh, l2⟩, w2⟩ := r2
      simp only [hq, Pure.pure, TM.pure, Option.some.injEq, Prod.mk.injEq] at h
      obtain ⟨⟨rfl, rfl⟩, rfl⟩ := h
      rw [updateHashesL_complete _ _ _ _ _ _ hq hl]
      rfl

/-! ## Length of the log -/

/-- Number of nodes that `updateHashes` visits. -/
def cost (V : View) : Nat → Nibbles → Nat
  | 0, _ => 0
  | fuel + 1, k =>
    match V k with
    | some (.branch _ ch) =>
      S (fun i => if (ch i).exist ∧ (ch i).hash = zeroHash then cost V fuel (k ++ (ch i).suffix) else 0) + 1
    | _ => 1

theorem cost_congr {V V' : View} : ∀ (fuel : Nat) (k : Nibbles), (∀ q, k <+: q → V' q = V q) →
    cost V' fuel k = cost V fuel k := by
  intro fuel
  induction fuel with
  | zero => intro k _; rfl
  | succ fuel ih =>
    intro k h
    simp only [cost, h k (List.prefix_refl _)]
    cases V k with
    | none => rfl
    | some o =>
      cases o with
      | leaf _ _ => rfl
      | branch p ch =>
        simp only []
        congr 2
        funext i
        rw [ih _ (fun q hq => h q ((List.prefix_append _ _).trans hq))]

/-- The sum of `cost` over a list of children. -/
def loopCost (V : View) (fuel : Nat) (k : Nibbles) (ch : Nib → Child) (is : List Nib) : Nat :=
  (is.map fun i => if (ch i).exist ∧ (ch i).hash = zeroHash then cost V fuel (k ++ (ch i).suffix) else 0).sum

theorem count_loop {recL : Nibbles → TM (Hash32 × List Bytes)} {recV : Nibbles → View → Option (Hash32 × View)} {fuel : Nat}
    (hrec : ∀ {w V c hh V'}, R w V → Loc V → recV c V = some (hh, V') → ∃ l w', recL c w = some ((hh, l), w') ∧ R w' V' ∧
      (∀ q, w'.store.get q = w.store.get q) ∧ l.length = cost V fuel c ∧ Shape V V' ∧ ∀ q, ¬ c <+: q → V' q = V q)
    {k : Nibbles} {p : Ptr} : ∀ {is : List Nib} {w : World} {V V' : View} {ch : Nib → Child}, is.Nodup →
    R w V → Loc V → w.store.get k = some p → Br V k ch → hashLoopV recV k is V = some V' →
    ∃ l w', hashLoopL recL k p is w = some (l, w') ∧ R w' V' ∧ (∀ q, w'.store.get q = w.store.get q) ∧
      l.length = loopCost V fuel k ch is ∧ Shape V V' ∧ ∀ q, ¬ k <+: q → V' q = V q := by
  intro is
  induction is with
  | nil =>
    intro w V V' ch _ h L hp hb hv
    simp only [hashLoopV, Option.some.injEq] at hv
    subst hv
    exact ⟨[], w, rfl, h, fun _ => rfl, rfl, Shape.refl _, fun _ _ => rfl⟩
  | cons i is ih =>
    intro w V V' ch hnd h L hp hb hv
    obtain ⟨hni, hnd⟩ := List.nodup_cons.mp hnd
    have hb' : V k = some (.branch k ch) := hb
    simp only [hashLoopV, hb'] at hv
    by_cases hc : (ch i).exist = true ∧ (ch i).hash = zeroHash
    · rw [if_pos hc] at hv
      obtain ⟨⟨s, hs⟩, _⟩ := L.child hb hc.1
      split at hv
      · simp at hv
      next hh V1 hr =>
        obtain ⟨l1, w1, a1, a2, a3, a4, a5, a6⟩ := hrec h L hr
        have hk1 : V1 k = some (.branch k ch) := by rw [a6 k (by rw [hs]; exact append_not_pre)]; exact hb
        simp only [hk1] at hv
        have hg1 : w1.store.get k = some p := by rw [a3]; exact hp
        generalize hch1 : setChild ch i { ch i with hash := hh } = ch1 at hv
        have c1n : ∀ j, j ≠ i → ch1 j = ch j := fun j hj => by rw [← hch1, setChild_ne _ _ hj]
        have sh2 : Shape V1 (vset V1 k (.branch k ch1)) := by
          refine vset_shape hk1 ⟨rfl, fun j => ?_⟩
          by_cases hj : j = i
          · subst hj; rw [← hch1, setChild_self]; simp
          · simp [c1n j hj]
        have hw := a2.write hg1 (.branch k ch1)
        obtain ⟨l2, w2, b1, b2, b3, b4, b5, b6⟩ := ih (ch := ch1) hnd hw ((L.shape a5).shape sh2) hg1 (by simp [Br]) hv
        refine ⟨l1 ++ l2, w2, ?_, b2, fun q => (b3 q).trans (a3 q), ?_, (a5.trans sh2).trans b5, ?_⟩
        · rw [hashLoopL]
          simp only [TM.bind_eq, asBranch_eq h hp hb']
          rw [if_pos hc]
          simp only [TM.bind_eq, a1, asBranch_eq a2 hg1 hk1, write]
          rw [show setChild ch i ⟨(ch i).suffix, hh, (ch i).exist⟩ = ch1 from hch1, b1]
          rfl
        · have same : ∀ j ∈ is, (ch j).exist = true → cost (vset V1 k (.branch k ch1)) fuel (k ++ (ch j).suffix) =
              cost V fuel (k ++ (ch j).suffix) := by
            intro j hj hje
            have hji : j ≠ i := by rintro rfl; exact hni hj
            obtain ⟨⟨t, ht⟩, _⟩ := L.child hb hje
            apply cost_congr
            intro q hq
            rw [ht] at hq
            rw [vset_ne, a6]
            · rw [hs]; exact sibling hji hq
            · rintro rfl; exact append_not_pre hq
          have : loopCost (vset V1 k (.branch k ch1)) fuel k ch1 is = loopCost V fuel k ch is := by
            unfold loopCost
            congr 1
            apply List.map_congr_left
            intro j hj
            have hji : j ≠ i := by rintro rfl; exact hni hj
            rw [c1n j hji]
            by_cases hje : (ch j).exist = true ∧ (ch j).hash = zeroHash
            · rw [if_pos hje, if_pos hje, same j hj hje.1]
            · rw [if_neg hje, if_neg hje]
          rw [List.length_append, b4, this, a4]
          simp only [loopCost, List.map_cons, List.sum_cons, if_pos hc]
        · intro q hq
          rw [b6 q hq, vset_ne _ _ _ (by rintro rfl; exact hq (List.prefix_refl _)), a6]
          exact fun h => hq ((List.prefix_append _ _).trans h)
    · rw [if_neg hc] at hv
      obtain ⟨l2, w2, b1, b2, b3, b4, b5, b6⟩ := ih hnd h L hp hb hv
      refine ⟨l2, w2, ?_, b2, b3, ?_, b5, b6⟩
      · rw [hashLoopL]
        simp only [TM.bind_eq, asBranch_eq h hp hb']
        rw [if_neg hc, b1]
      · rw [b4]; simp only [loopCost, List.map_cons, List.sum_cons, if_neg hc, Nat.zero_add]

theorem count_updH {fuel : Nat} : ∀ {w : World} {V V' : View} {k : Nibbles} {hh : Hash32},
    R w V → Loc V → updHV H fuel k V = some (hh, V') → ∃ l w', updateHashesL H fuel k w = some ((hh, l), w') ∧ R w' V' ∧
      (∀ q, w'.store.get q = w.store.get q) ∧ l.length = cost V fuel k ∧ Shape V V' ∧ ∀ q, ¬ k <+: q → V' q = V q := by
  induction fuel with
  | zero => intro w V V' k hh h L hv; simp [updHV] at hv
  | succ fuel ih =>
    intro w V V' k hh h L hv
    unfold updHV at hv
    unfold updateHashesL
    split at hv
    · simp at hv
    next p v ho =>
      obtain ⟨ptr, hg, hh'⟩ := h.get ho
      simp only [Option.some.injEq, Prod.mk.injEq] at hv
      obtain ⟨rfl, rfl⟩ := hv
      refine ⟨[leafBytes p v], w, ?_, h, fun _ => rfl, ?_, Shape.refl _, fun _ _ => rfl⟩
      · simp only [TM.bind_eq, getNode, hg, deref, hh']
        rfl
      · simp [cost, ho]
    next pp ch ho =>
      obtain ⟨ptr, hg, hh'⟩ := h.get ho
      have hpk : pp = k := (L.branch ho).1
      subst hpk
      split at hv
      · simp at hv
      next V1 hl =>
        obtain ⟨l, w1, a1, a2, a3, a4, a5, a6⟩ := count_loop (recL := updateHashesL H fuel) (fuel := fuel)
          (fun hR hL hr => ih hR hL hr) finRange_nodup h L hg ho hl
        split at hv
        next p2 ch2 ho2 =>
          split at hv
          next he =>
            subst he
            simp only [Option.some.injEq, Prod.mk.injEq] at hv
            obtain ⟨rfl, rfl⟩ := hv
            have hg2 : w1.store.get p2 = some ptr := by rw [a3]; exact hg
            obtain ⟨w2, b1, b2, b3, b4⟩ := a2.putSame hg2
            refine ⟨l ++ [branchBytes p2 ch2], w2, ?_, b2, fun q => (b3 q).trans (a3 q), ?_, a5, a6⟩
            · simp only [TM.bind_eq, getNode, hg, deref, hh', a1, asBranch_eq a2 hg2 ho2, b1]
              rfl
            · simp only [cost, ho, List.length_append, a4, List.length_singleton]
              rfl
          · simp at hv
        · simp at hv

/-! ## Bound -/

/-- No cached hash is zero. -/
def NoZero (V : View) : Prop := ∀ k ch i, Br V k ch → (ch i).exist = true → (ch i).hash ≠ zeroHash

theorem cost_one {V V' : View} (L : Loc V') (hz : NoZero V) {k : Nibbles} (hs : ∀ q, k <+: q → V' q = V q) (hk : V' k ≠ none)
    (fuel : Nat) : cost V' (fuel + 1) k = 1 := by
  rcases L.node_cases hk with ⟨v, hv, _⟩ | ⟨ch, hb, _⟩
  · simp [cost, hv]
  · have hb' : V' k = some (.branch k ch) := hb
    have hb0 : Br V k ch := by unfold Br; rw [← hs k (List.prefix_refl _)]; exact hb
    simp only [cost, hb']
    have : S (fun i => if (ch i).exist ∧ (ch i).hash = zeroHash then cost V' fuel (k ++ (ch i).suffix) else 0) = 0 := by
      apply sum_zero
      intro i _
      rw [if_neg]
      rintro ⟨h1, h2⟩
      exact hz k ch i hb0 h1 h2
    omega

theorem sum_mul {l : List Nib} {f : Nib → Nat} (c : Nat) : (l.map fun i => f i * c).sum = (l.map f).sum * c := by
  induction l with
  | nil => simp
  | cons x l ih => simp only [List.map_cons, List.sum_cons, ih, Nat.add_mul]

theorem one_next {k x : Nibbles} {i j : Nib} (h1 : k ++ [i] <+: x) (h2 : k ++ [j] <+: x) : i = j := by
  have := pre_len_eq h1 h2 (by simp)
  simpa using this

theorem cost_upd {q : Nibbles} {value : Bytes} {V V' : View} (u : Upd q value V V') (hz : NoZero V) :
    ∃ x, ∀ (fuel : Nat) (k : Nibbles), 40 < fuel + k.length → V' k ≠ none → k <+: q →
      cost V' fuel k ≤ 41 - k.length + ind (k <+: x) := by
  obtain ⟨x, hone⟩ := u.one
  refine ⟨x, ?_⟩
  have L := u.loc
  have hoff : ∀ (fuel : Nat) (k : Nibbles), 40 < fuel + k.length → V' k ≠ none → ¬ k <+: q → cost V' fuel k = 1 := by
    intro fuel k hf hk hn
    have := L.len_le hk
    cases fuel with
    | zero => omega
    | succ fuel =>
      exact cost_one L hz (fun q' hq' => u.off q' (fun h => hn (hq'.trans h))) hk fuel
  intro fuel
  induction fuel with
  | zero => intro k hf hk _; have := L.len_le hk; omega
  | succ fuel ih =>
    intro k hf hk hkq
    rcases L.node_cases hk with ⟨v, hv, h40, _⟩ | ⟨ch, hb, hlt⟩
    · simp only [cost, hv]; omega
    · have hb' : V' k = some (.branch k ch) := hb
      simp only [cost, hb']
      have hle : ∀ i ∈ List.finRange 16,
          (if (ch i).exist ∧ (ch i).hash = zeroHash then cost V' fuel (k ++ (ch i).suffix) else 0) ≤
          ind (k ++ [i] <+: q) * (40 - k.length) + ind (k ++ [i] <+: x) := by
        intro i _
        by_cases hc : (ch i).exist = true ∧ (ch i).hash = zeroHash
        · rw [if_pos hc]
          obtain ⟨⟨s, hs⟩, htn⟩ := L.child hb hc.1
          have hcl : 40 < fuel + (k ++ (ch i).suffix).length := by rw [hs]; simp; omega
          have hpre : k ++ [i] <+: k ++ (ch i).suffix := by rw [hs]; exact snoc_pre_cons.mpr rfl
          by_cases hiq : k ++ [i] <+: q
          · rw [ind_pos hiq]
            by_cases hcq : k ++ (ch i).suffix <+: q
            · have h1 := ih _ hcl htn hcq
              have h2 : (k ++ (ch i).suffix).length = k.length + (1 + s.length) := by rw [hs]; simp; omega
              have h3 : ind (k ++ (ch i).suffix <+: x) ≤ ind (k ++ [i] <+: x) := by
                by_cases h : k ++ (ch i).suffix <+: x
                · rw [ind_pos h, ind_pos (hpre.trans h)]; exact Nat.le_refl _
                · rw [ind_neg h]; exact Nat.zero_le _
              omega
            · rw [hoff fuel _ hcl htn hcq]; omega
          · rw [ind_neg hiq]
            have hcq : ¬ k ++ (ch i).suffix <+: q := fun h => hiq (hpre.trans h)
            rcases hone hb hkq hc.1 hiq with h | ⟨ch0, h0, h1⟩
            · rw [hoff fuel _ hcl htn hcq, ind_pos (by rw [← h]; exact hpre)]; omega
            · exact absurd hc.2 (by rw [← h1]; exact hz k ch0 i h0 (by rw [h1]; exact hc.1))
        · rw [if_neg hc]; exact Nat.zero_le _
      generalize hA : ((List.finRange 16).map fun i => ind (k ++ [i] <+: q)).sum = A
      generalize hB : ((List.finRange 16).map fun i => ind (k ++ [i] <+: x)).sum = B
      have h1 : S (fun i => if (ch i).exist ∧ (ch i).hash = zeroHash then cost V' fuel (k ++ (ch i).suffix) else 0) ≤
          A * (40 - k.length) + B := by
        have := sum_map_le hle
        rw [sum_map_add, sum_mul] at this
        rw [← hA, ← hB]; exact this
      have h2 : A ≤ 1 := hA ▸ sum_indicator finRange_nodup (fun i => k ++ [i] <+: q) (fun i j => one_next)
      have h3 : B ≤ ind (k <+: x) := by
        rw [← hB]
        by_cases h : k <+: x
        · rw [ind_pos h]; exact sum_indicator finRange_nodup (fun i => k ++ [i] <+: x) (fun i j => one_next)
        · rw [ind_neg h, Nat.le_zero]
          exact sum_zero (fun i _ => ind_neg (fun h' => h ((List.prefix_append _ _).trans h')))
      have h4 := Nat.mul_le_mul_right (40 - k.length) h2
      omega

/-! ## The hash function must not return zero on the nodes of the tree -/

theorem strings_node {V : View} {L : Nibbles → Bytes} (Lo : Loc V) (hC : Clean H V)
    (hL : ∀ p, p.length = 40 → V p = none → L p = []) (hL' : ∀ p v, V p = some (.leaf p v) → L p = v) :
    ∀ (d : Nat) (p c : Nibbles) (o : NodeObj), p.length + d = 40 → p ≠ [] → p <+: c → V c = some o →
      ∃ x ∈ Spec.topStrings H L d p, objHash H o = H x := by
  intro d
  induction d with
  | zero =>
    intro p c o hp hne hpc ho
    have hc := Lo.len_le (by rw [ho]; simp : V c ≠ none)
    have : p = c := hpc.eq_of_length (by have := hpc.length_le; omega)
    subst this
    rcases Lo.node_cases (by rw [ho]; simp : V p ≠ none) with ⟨v, hv, _, hvn⟩ | ⟨ch, hb, hlt⟩
    · rw [ho] at hv
      simp only [Option.some.injEq] at hv
      subst hv
      exact ⟨Spec.leafEnc p v, by simp only [Spec.topStrings, hL' p v ho, if_neg hvn, List.mem_singleton], by rw [objHash, leafBytes_eq]⟩
    · omega
  | succ d ih =>
    intro p c o hp hne hpc ho
    have key : (∃ x ∈ (List.finRange 16).flatMap fun i => Spec.topStrings H L d (p ++ [i]), objHash H o = H x) →
        ∃ x ∈ Spec.topStrings H L (d + 1) p, objHash H o = H x := by
      rintro ⟨x, hx, he⟩
      refine ⟨x, ?_, he⟩
      simp only [Spec.topStrings]
      split
      · exact hx
      · exact hx
      · exact List.mem_cons_of_mem _ hx
    by_cases he : p = c
    · subst he
      rcases Lo.node_cases (by rw [ho]; simp : V p ≠ none) with ⟨v, hv, h40, _⟩ | ⟨ch, hb, hlt⟩
      · omega
      have hb' : V p = some (.branch p ch) := hb
      rw [ho] at hb'
      simp only [Option.some.injEq] at hb'
      subst hb'
      refine ⟨Spec.branchEnc p ((existing ch).map fun c => (c.suffix, c.hash)), ?_, by rw [objHash, branchBytes_eq]⟩
      simp only [Spec.topStrings]
      rw [kids_branch Lo hC hL (by omega) hb (fun c p' o a b e f g h => top_link Lo hC hL hL' d p c p' o a b e f g h)]
      obtain ⟨i, j, hij, hi, hj⟩ := Lo.two hb hne
      obtain ⟨a, b, cs, hex⟩ := existing_length_two hij hi hj
      rw [hex]
      simp
    · have hlt : p.length < c.length := by
        rcases Nat.lt_or_ge p.length c.length with h | h
        · exact h
        · exact absurd (hpc.eq_of_length (Nat.le_antisymm hpc.length_le h)) he
      obtain ⟨i, hi⟩ := pre_next hpc hlt
      obtain ⟨x, hx, hxe⟩ := ih (p ++ [i]) c o (by simp; omega) (by simp) hi ho
      exact key ⟨x, List.mem_flatMap.mpr ⟨i, List.mem_finRange i, hx⟩, hxe⟩

theorem noZero_of {w : World} {M : Spec.Mapping} (I : TreeInv H w M) (hz : ∀ x ∈ Spec.rootStrings H M, H x ≠ zeroHash) :
    NoZero w.view := by
  intro k ch i hb hi
  have hL : ∀ p : Nibbles, p.length = 40 → w.view p = none → Spec.leafAt M p = [] := by
    intro p hp hn
    obtain ⟨a, rfl⟩ := keyNibs_surj hp
    rw [leafAt_nibs]
    rw [I.map a] at hn
    split at hn
    · assumption
    · simp at hn
  have hL' : ∀ p v, w.view p = some (.leaf p v) → Spec.leafAt M p = v := by
    intro p v hv
    obtain ⟨a, rfl⟩ := keyNibs_surj (I.loc.leaf hv).2.1
    rw [leafAt_nibs]
    rw [I.map a] at hv
    split at hv
    · simp at hv
    · simpa using hv
  obtain ⟨⟨s, hs⟩, htn⟩ := I.loc.child hb hi
  obtain ⟨o, ho⟩ := Option.ne_none_iff_exists'.mp htn
  rw [I.clean k ch i hb hi o ho]
  have hlt : ([] : Nibbles).length < (k ++ (ch i).suffix).length := by rw [hs]; simp; omega
  obtain ⟨j, hj⟩ := pre_next (List.nil_prefix) hlt
  obtain ⟨x, hx, hxe⟩ := strings_node I.loc I.clean hL hL' 39 ([] ++ [j]) _ o (by simp) (by simp) hj ho
  rw [hxe]
  exact hz x (List.mem_cons_of_mem _ (List.mem_flatMap.mpr ⟨j, List.mem_finRange j, hx⟩))

theorem putEntryL_cost {w : World} {M : Spec.Mapping} (I : TreeInv H w M)
    (hz : ∀ x ∈ Spec.rootStrings H M, H x ≠ zeroHash) (a : Addr) (v : Bytes) :
    ∃ b l w', putEntryL H a v w = some ((b, l), w') ∧ l.length ≤ 42 ∧ (M a = v → l.length = 1) := by
  have hr := I.wf.r
  have hlen := keyNibs_length a
  have hnz := noZero_of I hz
  have hroot : w.view [] ≠ none := by obtain ⟨ch, hb⟩ := I.loc.root; rw [hb]; simp
  have noop : M a = v → updateEntry a v w = some (false, w) →
      ∃ b l w', putEntryL H a v w = some ((b, l), w') ∧ l.length ≤ 42 ∧ (M a = v → l.length = 1) := by
    intro hv hu
    obtain ⟨x, V', e1, _⟩ := updH_spec maxDepth w.view [] I.loc hroot (semi_of_clean I.clean []) (by simp [maxDepth])
    obtain ⟨l, w', f1, _, _, f4, _⟩ := count_updH hr I.loc e1
    have f5 : cost w.view maxDepth [] = 1 := cost_one I.loc hnz (fun _ _ => rfl) hroot 63
    refine ⟨false, l, w', ?_, by omega, fun _ => by omega⟩
    simp only [putEntryL, TM.bind_eq, hu, f1]; rfl
  have change : M a ≠ v → (∀ w', update maxDepth [] (keyNibs a) v [] w = some ((), w') → updateEntry a v w = some (true, w')) →
      ∃ b l w', putEntryL H a v w = some ((b, l), w') ∧ l.length ≤ 42 ∧ (M a = v → l.length = 1) := by
    intro hv hu
    have hdel : v = [] → w.view (keyNibs a) ≠ none := by
      rintro rfl
      rw [I.map a, if_neg hv]; simp
    obtain ⟨V', e1, e2⟩ := upd_spec I.loc (value := v) hlen hdel maxDepth [] [] (by simp [maxDepth]) hroot rfl (.inl rfl)
    obtain ⟨w1, f1, f2⟩ := sim_upd (ps := []) (ks := []) hr trivial e1
    have hroot' : V' [] ≠ none := by obtain ⟨ch, hb⟩ := e2.loc.root; rw [hb]; simp
    obtain ⟨x, V2, g1, _⟩ := updH_spec maxDepth V' [] e2.loc hroot' (semi_of_upd I.clean e2) (by simp [maxDepth])
    obtain ⟨l, w', k1, _, _, k4, _⟩ := count_updH f2 e2.loc g1
    obtain ⟨y, hy⟩ := cost_upd e2 hnz
    have hle := hy maxDepth [] (by simp [maxDepth]) hroot' List.nil_prefix
    rw [ind_pos List.nil_prefix] at hle
    refine ⟨true, l, w', ?_, by rw [k4]; simpa using hle, fun h => absurd h hv⟩
    simp only [putEntryL, TM.bind_eq, hu w1 f1, k1]; rfl
  have hm := I.map a
  by_cases hM : M a = []
  · rw [if_pos hM] at hm
    have hg := hr.get_none hm
    by_cases hv : v = []
    · apply noop (by rw [hM, hv])
      simp [updateEntry, TM.bind_eq, getNode, hg, hv, Pure.pure, TM.pure]
    · have hvl : v.length ≠ 0 := fun h => hv (List.length_eq_zero_iff.mp h)
      apply change (by rw [hM]; exact Ne.symm hv)
      intro w' hw
      simp only [updateEntry, TM.bind_eq, getNode, hg, hvl, if_false, hw]
      rfl
  · rw [if_neg hM] at hm
    obtain ⟨p, hg, hh⟩ := hr.get hm
    by_cases hv : M a = v
    · apply noop hv
      simp only [updateEntry, TM.bind_eq, getNode, hg, deref, hh, hv, if_true]
      rfl
    · apply change hv
      intro w' hw
      simp only [updateEntry, TM.bind_eq, getNode, hg, deref, hh, hv, if_false, hw]
      rfl

/-- C97: in every state a tree can reach (puts, overlays, flushes), one `PutEntry` hashes at most 42 nodes however many
entries there are, and exactly one (the root) when the entry already has that value. `log` lists the strings hashed: the
program with the log behaves as the program (second conjunct), and replacing the hash function by any other that agrees on
the log gives the same result and the same final state (last conjunct). The hypothesis says that no node of the tree has the
all-zero hash, which the code uses as its "not computed" mark. -/
theorem C97_hash_cost {w : World} {M : Spec.Mapping} (h : Reach H w M)
    (hz : ∀ x ∈ Spec.rootStrings H M, H x ≠ zeroHash) (a : Addr) (v : Bytes) :
    ∃ b log w', putEntryL H a v w = some ((b, log), w') ∧ putEntry H a v w = some (b, w') ∧ log.length ≤ 42 ∧
      (M a = v → log.length = 1) ∧
      ∀ H' : Bytes → Hash32, (∀ x ∈ log, H' x = H x) → putEntry H' a v w = some (b, w') := by
  obtain ⟨b, l, w', e1, e2, e3⟩ := putEntryL_cost h.inv hz a v
  refine ⟨b, l, w', e1, by rw [putEntryL_erase, e1]; rfl, e2, e3, ?_⟩
  intro H' hl
  rw [putEntryL_erase, putEntryL_complete e1 hl]; rfl

/-- The same without a log: the effect of a `PutEntry` is determined by the hash function's values at 42 strings. -/
theorem C97_queries {w : World} {M : Spec.Mapping} (h : Reach H w M)
    (hz : ∀ x ∈ Spec.rootStrings H M, H x ≠ zeroHash) (a : Addr) (v : Bytes) :
    ∃ S : List Bytes, S.length ≤ 42 ∧
      ∀ H' : Bytes → Hash32, (∀ x ∈ S, H' x = H x) → putEntry H' a v w = putEntry H a v w := by
  obtain ⟨b, l, w', _, e1, e2, _, e3⟩ := C97_hash_cost h hz a v
  exact ⟨l, e2, fun H' hl => by rw [e1]; exact e3 H' hl⟩

/-- A hash function without zeros, a tree with two entries and an overlay, and a put that splits a link (C97). -/
example : ∃ (H : Bytes → Hash32) (w : World) (M : Spec.Mapping), Reach H w M ∧ (∀ x ∈ Spec.rootStrings H M, H x ≠ zeroHash) ∧
    M exA = [1] ∧ M exB = [] := by
  let H : Bytes → Hash32 := fun x => ⟨UInt8.ofNat (x.length % 255 + 1) :: List.replicate 31 0, by simp⟩
  obtain ⟨b1, w1, e1, _, _⟩ := putEntry_spec (newWorld_inv (H := H)) exA [1]
  refine ⟨H, _, _, .push (.put .fresh e1), ?_, by simp [Spec.set], by simp only [Spec.set]; decide⟩
  intro x _ h
  have := congrArg (fun b : Hash32 => b.val.headD 0) h
  simp only [H, zeroHash, BArr.zero, List.headD_cons] at this
  have h2 := congrArg UInt8.toNat this
  rw [UInt8.toNat_ofNat'] at h2
  have : x.length % 255 + 1 < 256 := by omega
  simp [List.replicate] at h2
  omega

end Nimiq.Tree
