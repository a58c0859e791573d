import Verif.Tree.Ops
/-!
# What tree operations leave alone

`Keeps P m`: whenever `m` succeeds from a world satisfying `P`, the result satisfies `P`.
-/
namespace Nimiq.Tree

variable {H : Bytes → Hash32}

def Keeps {α} (P : World → Prop) (m : TM α) : Prop := ∀ w x w', m w = some (x, w') → P w → P w'

namespace Keeps
variable {P : World → Prop}

theorem pure {α} (a : α) : Keeps P (Pure.pure a : TM α) := by
  intro w x w' h hp
  simp only [Pure.pure, TM.pure, Option.some.injEq, Prod.mk.injEq] at h
  rw [← h.2]; exact hp

theorem panic {α} : Keeps P (TM.panic : TM α) := by intro w x w' h; simp [TM.panic] at h

theorem bind {α β} {m : TM α} {f : α → TM β} (hm : Keeps P m) (hf : ∀ a, Keeps P (f a)) : Keeps P (m >>= f) := by
  intro w x w' h hp
  rw [TM.bind_eq] at h
  cases hmw : m w with
  | none => rw [hmw] at h; simp at h
  | some r =>
    obtain ⟨a, w1⟩ := r
    rw [hmw] at h
    exact hf a _ _ _ h (hm _ _ _ hmw hp)

theorem getNode (k) : Keeps P (Tree.getNode k) := by
  intro w x w' h hp
  simp only [Tree.getNode, Option.some.injEq, Prod.mk.injEq] at h
  rw [← h.2]; exact hp

theorem deref (p) : Keeps P (Tree.deref p) := by
  intro w x w' h hp
  simp only [Tree.deref, Option.some.injEq, Prod.mk.injEq] at h
  rw [← h.2]; exact hp

theorem asBranch (p) : Keeps P (Tree.asBranch p) := by
  unfold Tree.asBranch
  refine bind (deref p) (fun o => ?_)
  cases o
  · exact panic
  · exact pure _

theorem withChild (ch s h) : Keeps P (Tree.withChild ch s h) := by
  unfold Tree.withChild; cases s
  · exact panic
  · exact pure _

theorem sliceFrom (l n) : Keeps P (Tree.sliceFrom l n) := by
  unfold Tree.sliceFrom; split
  · exact pure _
  · exact panic

end Keeps

/-- `P` only depends on the store, in a way that puts and deletes respect. -/
structure StoreProp (P : Store → Prop) : Prop where
  put : ∀ {s k p s'}, P s → s.put k p = some s' → P s'
  del : ∀ {s k s'}, P s → s.del k = some s' → P s'

namespace StoreProp
variable {P : Store → Prop} (hP : StoreProp P)
include hP

theorem kalloc (o) : Keeps (fun w => P w.store) (alloc o) := by
  intro w x w' h hp
  simp only [alloc, Option.some.injEq, Prod.mk.injEq] at h
  rw [← h.2]; exact hp

theorem kwrite (p o) : Keeps (fun w => P w.store) (write p o) := by
  intro w x w' h hp
  simp only [write, Option.some.injEq, Prod.mk.injEq] at h
  rw [← h.2]; exact hp

theorem kput (k p) : Keeps (fun w => P w.store) (putNode k p) := by
  intro w x w' h hp
  simp only [putNode, Option.map_eq_some_iff, Prod.mk.injEq] at h
  obtain ⟨s, h1, -, rfl⟩ := h
  exact hP.put hp h1

theorem kdel (k) : Keeps (fun w => P w.store) (delNode k) := by
  intro w x w' h hp
  simp only [delNode, Option.map_eq_some_iff, Prod.mk.injEq] at h
  obtain ⟨s, h1, -, rfl⟩ := h
  exact hP.del hp h1

theorem kinv : ∀ (path cur), Keeps (fun w => P w.store) (invalidatePath cur path) := by
  intro path
  induction path with
  | nil => intro cur; exact Keeps.pure _
  | cons p path ih =>
    intro cur
    unfold invalidatePath
    refine .bind (.asBranch p) fun r => ?_
    refine .bind (.sliceFrom _ _) fun s => ?_
    refine .bind (.withChild _ _ _) fun c => ?_
    refine .bind (hP.kwrite _ _) fun _ => ?_
    exact ih _

theorem kprune : ∀ (path cur), Keeps (fun w => P w.store) (prune cur path) := by
  intro path
  induction path with
  | nil => intro cur; exact Keeps.pure _
  | cons p path ih =>
    intro cur
    unfold prune
    refine .bind (.asBranch p) fun r => ?_
    obtain ⟨pfx, ch⟩ := r
    simp only
    split
    · exact .panic
    · refine .bind (hP.kwrite _ _) fun _ => ?_
      split
      · split
        · exact .bind (hP.kdel _) fun _ => hP.kinv _ _
        · exact .bind (hP.kput _ _) fun _ => hP.kinv _ _
      · split
        · exact .bind (hP.kput _ _) fun _ => hP.kinv _ _
        · exact ih _
      · exact .bind (hP.kput _ _) fun _ => hP.kinv _ _

theorem kupdate : ∀ (fuel np q v path), Keeps (fun w => P w.store) (update fuel np q v path) := by
  intro fuel
  induction fuel with
  | zero => intro np q v path; exact Keeps.panic
  | succ fuel ih =>
    intro np q v path
    unfold update
    split
    · refine .bind (hP.kalloc _) fun _ => .bind (hP.kput _ _) fun _ => .bind (.sliceFrom _ _) fun _ =>
        .bind (.withChild _ _ _) fun _ => .bind (.sliceFrom _ _) fun _ => .bind (.withChild _ _ _) fun _ =>
        .bind (hP.kalloc _) fun _ => .bind (hP.kput _ _) fun _ => hP.kinv _ _
    · split
      · split
        · exact .bind (hP.kdel _) fun _ => hP.kprune _ _
        · exact .bind (hP.kalloc _) fun _ => .bind (hP.kput _ _) fun _ => hP.kinv _ _
      · refine .bind (.getNode _) fun r => ?_
        cases r with
        | none => exact .panic
        | some node =>
          refine .bind (.asBranch _) fun r => ?_
          obtain ⟨npfx, ch⟩ := r
          simp only
          split
          · exact .panic
          · split
            · exact ih _ _ _ _
            · exact .bind (hP.kalloc _) fun _ => .bind (hP.kput _ _) fun _ => .bind (.asBranch _) fun _ =>
                .bind (.sliceFrom _ _) fun _ => .bind (.withChild _ _ _) fun _ => .bind (hP.kwrite _ _) fun _ =>
                .bind (hP.kput _ _) fun _ => hP.kinv _ _

theorem khashLoop {rec : Nibbles → TM Hash32} (hr : ∀ k, Keeps (fun w => P w.store) (rec k)) (k p) :
    ∀ is, Keeps (fun w => P w.store) (hashLoop rec k p is) := by
  intro is
  induction is with
  | nil => exact Keeps.pure _
  | cons i is ih =>
    unfold hashLoop
    refine .bind (.asBranch _) fun r => ?_
    obtain ⟨npfx, ch⟩ := r
    simp only
    split
    · exact .bind (hr _) fun _ => .bind (.asBranch _) fun _ => .bind (hP.kwrite _ _) fun _ => ih
    · exact ih

theorem kupdateHashes : ∀ (fuel k), Keeps (fun w => P w.store) (updateHashes H fuel k) := by
  intro fuel
  induction fuel with
  | zero => intro k; exact Keeps.panic
  | succ fuel ih =>
    intro k
    unfold updateHashes
    refine .bind (.getNode _) fun r => ?_
    cases r with
    | none => exact .panic
    | some p =>
      refine .bind (.deref _) fun o => ?_
      cases o with
      | leaf lp v => exact .pure _
      | branch pfx ch =>
        exact .bind (hP.khashLoop ih _ _ _) fun _ => .bind (.asBranch _) fun _ => .bind (hP.kput _ _) fun _ => .pure _

theorem kupdateEntry (a v) : Keeps (fun w => P w.store) (updateEntry a v) := by
  unfold updateEntry
  refine .bind (.getNode _) fun r => ?_
  cases r with
  | none =>
    simp only
    split
    · exact .pure _
    · exact .bind (hP.kupdate _ _ _ _ _) fun _ => .pure _
  | some p =>
    refine .bind (.deref _) fun o => ?_
    cases o with
    | leaf lp u =>
      simp only
      split
      · exact .pure _
      · exact .bind (hP.kupdate _ _ _ _ _) fun _ => .pure _
    | branch pfx ch => exact .bind (hP.kupdate _ _ _ _ _) fun _ => .pure _

theorem kputEntry (a v) : Keeps (fun w => P w.store) (putEntry H a v) := by
  unfold putEntry
  exact .bind (hP.kupdateEntry _ _) fun _ => .bind (hP.kupdateHashes _ _) fun _ => .pure _

end StoreProp

/-- A memory store stays a memory store. -/
theorem memProp : StoreProp (fun s => ∃ nodes, s = .mem nodes) where
  put := by rintro s k p s' ⟨n, rfl⟩ h; simp [Store.put] at h; exact ⟨_, h.symm⟩
  del := by rintro s k s' ⟨n, rfl⟩ h; simp [Store.del] at h; exact ⟨_, h.symm⟩

/-- The store below an overlay is never replaced. -/
theorem overlayProp (lower : Store) : StoreProp (fun s => ∃ d, s = .overlay lower d) where
  put := by
    rintro s k p s' ⟨d, rfl⟩ h
    cases d <;> simp [Store.put] at h
    exact ⟨_, h.symm⟩
  del := by
    rintro s k s' ⟨d, rfl⟩ h
    cases d <;> simp [Store.del] at h
    exact ⟨_, h.symm⟩

/-- Recomputing hashes never removes a child from a branch object. -/
theorem kexist_hashes (p0 : Ptr) (i0 : Nib) : ∀ fuel k,
    Keeps (fun w => ∃ pfx ch, w.heap p0 = .branch pfx ch ∧ (ch i0).exist = true) (updateHashes H fuel k) := by
  have kput : ∀ k p, Keeps (fun w => ∃ pfx ch, w.heap p0 = .branch pfx ch ∧ (ch i0).exist = true) (putNode k p) := by
    intro k p w x w' h hp
    simp only [putNode, Option.map_eq_some_iff, Prod.mk.injEq] at h
    obtain ⟨s, h1, -, rfl⟩ := h
    exact hp
  have step : ∀ (p : Ptr) (i : Nib) (h : Hash32) w x w',
      (asBranch p >>= fun r => write p (.branch r.1 (setChild r.2 i { r.2 i with hash := h }))) w = some (x, w') →
      (∃ pfx ch, w.heap p0 = .branch pfx ch ∧ (ch i0).exist = true) → ∃ pfx ch, w'.heap p0 = .branch pfx ch ∧ (ch i0).exist = true := by
    rintro p i h w x w' hw ⟨pfx, ch, h1, h2⟩
    cases hp : w.heap p with
    | leaf a b => simp [TM.bind_eq, asBranch, deref, hp, TM.panic] at hw
    | branch q c =>
      simp only [TM.bind_eq, asBranch, deref, hp, Pure.pure, TM.pure, write, Option.some.injEq, Prod.mk.injEq] at hw
      rw [← hw.2]
      by_cases hpp : p0 = p
      · subst hpp
        rw [hp] at h1
        simp only [NodeObj.branch.injEq] at h1
        obtain ⟨rfl, rfl⟩ := h1
        refine ⟨q, setChild c i { c i with hash := h }, by simp, ?_⟩
        unfold setChild
        split
        · rename_i e; rw [← e]; exact h2
        · exact h2
      · exact ⟨pfx, ch, by simp [hpp, h1], h2⟩
  intro fuel
  induction fuel with
  | zero => intro k; exact Keeps.panic
  | succ fuel ih =>
    intro k
    have kloop : ∀ p is, Keeps (fun w => ∃ pfx ch, w.heap p0 = .branch pfx ch ∧ (ch i0).exist = true)
        (hashLoop (updateHashes H fuel) k p is) := by
      intro p is
      induction is with
      | nil => exact Keeps.pure _
      | cons i is ihl =>
        unfold hashLoop
        refine .bind (.asBranch _) fun r => ?_
        obtain ⟨npfx, ch⟩ := r
        simp only
        split
        · refine .bind (ih _) fun h => ?_
          intro w x w' hw hp
          rw [TM.bind_eq] at hw
          cases ha : asBranch p w with
          | none => rw [ha] at hw; simp at hw
          | some r =>
            obtain ⟨r, w1⟩ := r
            rw [ha] at hw
            simp only [TM.bind_eq] at hw
            have e1 : (asBranch p >>= fun r => write p (.branch r.1 (setChild r.2 i { r.2 i with hash := h }))) w =
                write p (.branch r.1 (setChild r.2 i { r.2 i with hash := h })) w1 := by
              rw [TM.bind_eq, ha]
            cases hwr : write p (.branch r.1 (setChild r.2 i { r.2 i with hash := h })) w1 with
            | none => simp [write] at hwr
            | some r2 =>
              obtain ⟨u, w2⟩ := r2
              rw [hwr] at hw e1
              exact ihl _ _ _ hw (step p i h _ _ _ e1 hp)
        · exact ihl
    unfold updateHashes
    refine .bind (.getNode _) fun r => ?_
    cases r with
    | none => exact .panic
    | some p =>
      refine .bind (.deref _) fun o => ?_
      cases o with
      | leaf lp v => exact .pure _
      | branch pfx ch =>
        exact .bind (kloop _ _) fun _ => .bind (.asBranch _) fun _ => .bind (kput _ _) fun _ => .pure _

end Nimiq.Tree
