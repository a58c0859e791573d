import Verif.Accounts.NoPanic
/-!
# C62: the outcome of Push does not depend on signatures
-/
namespace Nimiq.Accounts.Spec
open Wire

/-- The two transactions differ at most in a signature: the signature of a basic transaction, the last 64 bytes (where
signature proofs have the signature) of the proof of an extended one. -/
inductive SameButSignature : Tx → Tx → Prop
  | basic (t : BasicTx) (sig : BArr 64) : SameButSignature (.basic t) (.basic { t with signature := sig })
  | extended (t : ExtendedTx) (p s s' : Bytes) : s.length = 64 → s'.length = 64 →
      SameButSignature (.extended { t with proof := p ++ s }) (.extended { t with proof := p ++ s' })

/-- The two transactions differ at most in a signature (as above), the validity start height and the network id. -/
inductive SameButUnchecked : Tx → Tx → Prop
  | basic (t : BasicTx) (start : UInt32) (network : UInt8) (sig : BArr 64) :
      SameButUnchecked (.basic t) (.basic { t with validityStartHeight := start, networkID := network, signature := sig })
  | extended (t : ExtendedTx) (p s s' : Bytes) (start : UInt32) (network : UInt8) : s.length = 64 → s'.length = 64 →
      SameButUnchecked (.extended { t with proof := p ++ s })
        (.extended { t with validityStartHeight := start, networkID := network, proof := p ++ s' })

end Nimiq.Accounts.Spec

namespace Nimiq.Accounts
open Beserial Beserial.Spec Wire Spec

variable {E : Env} {n n' : Node}

theorem SameButUnchecked.symm {t u : Tx} (h : SameButUnchecked t u) : SameButUnchecked u t := by
  cases h with
  | basic t vsh nid sig =>
    exact .basic { t with validityStartHeight := vsh, networkID := nid, signature := sig } t.validityStartHeight t.networkID
      t.signature
  | extended t p s s' vsh nid h1 h2 =>
    exact .extended { t with validityStartHeight := vsh, networkID := nid } p s' s t.validityStartHeight t.networkID h2 h1

theorem SameButUnchecked.eqs {t u : Tx} (h : SameButUnchecked t u) (H : Bytes → Hash32) :
    t.getSender H = u.getSender H ∧ t.getRecipient = u.getRecipient ∧ t.amount = u.amount ∧ creates t = creates u ∧
    ∀ height bal, contractOf t height bal = contractOf u height bal := by
  cases h with
  | basic t vsh nid sig => exact ⟨rfl, rfl, rfl, rfl, fun _ _ => rfl⟩
  | extended t p s s' vsh nid h1 h2 => exact ⟨rfl, rfl, rfl, rfl, fun _ _ => rfl⟩

theorem proofOf_resign {H : Bytes → Hash32} {p s s' : Bytes} {a : Addr} (h1 : s.length = 64) (h2 : s'.length = 64)
    (h : ProofOf H (p ++ s) a) : ProofOf H (p ++ s') a := by
  obtain ⟨sp, w, hb, hs⟩ := h
  unfold proofBytes at hb
  obtain ⟨e1, e2⟩ := List.append_inj' hb (by rw [h1]; exact sp.signature.property.symm)
  exact ⟨{ sp with signature := ⟨s', h2⟩ }, w, by unfold proofBytes; rw [e1], hs⟩

/-- A proof is no shorter than its signature. -/
theorem proofOf_split {H : Bytes → Hash32} {q b : Bytes} {a : Addr} {p s : Bytes} (h1 : s.length = 64)
    (h : ProofOf H b a) (he : p ++ s = q ++ b) : ∃ r, b = r ++ s ∧ p = q ++ r := by
  obtain ⟨sp, w, hb, hs⟩ := h
  unfold proofBytes at hb
  rw [hb, ← List.append_assoc] at he
  obtain ⟨e1, e2⟩ := List.append_inj' he (by rw [h1]; exact sp.signature.property.symm)
  exact ⟨_, by rw [hb, e2], e1⟩

theorem htlcProof_resign {H : Bytes → Hash32} {c : HTLCAccount} {height : UInt32} {p s s' b : Bytes} (h1 : s.length = 64)
    (h2 : s'.length = 64) (hb : b = p ++ s) (h : HTLCProof H c height b) : HTLCProof H c height (p ++ s') := by
  cases h with
  | regular depth pre q ht hp =>
    obtain ⟨r, rfl, rfl⟩ := proofOf_split (q := 1 :: c.hash.algorithm :: depth :: (c.hash.bytes.val ++ pre.val)) h1 hp
      (by rw [← hb]; simp)
    have := HTLCProof.regular (H := H) (c := c) depth pre (r ++ s') ht (proofOf_resign h1 h2 hp)
    simpa using this
  | early p1 p2 hp1 hp2 =>
    obtain ⟨r, rfl, rfl⟩ := proofOf_split (q := 2 :: p1) h1 hp2 (by rw [← hb]; simp)
    have := HTLCProof.early (H := H) (c := c) (height := height) p1 (r ++ s') hp1 (proofOf_resign h1 h2 hp2)
    simpa using this
  | timeout q ht hp =>
    obtain ⟨r, rfl, rfl⟩ := proofOf_split (q := [3]) h1 hp (by rw [← hb]; simp)
    have := HTLCProof.timeout (H := H) (c := c) (r ++ s') ht (proofOf_resign h1 h2 hp)
    simpa using this

theorem SameButUnchecked.outgoing {t u : Tx} (h : SameButUnchecked t u) {acc x : Account} {height : UInt32}
    (hx : applyOutgoing E acc t height = .ok x) : applyOutgoing E acc u height = .ok x := by
  cases acc with
  | basic a =>
    have := (SameButUnchecked.eqs h E.H).2.2.1
    show basicOutgoing a u = _
    have hx' : basicOutgoing a t = _ := hx
    unfold basicOutgoing at hx' ⊢
    rw [← this]; exact hx'
  | vesting c =>
    obtain ⟨t', rfl, hv, hp, rfl⟩ := (C60_debit_iff ..).mp hx
    cases h with
    | extended t p s s' vsh nid h1 h2 =>
      exact (C60_debit_iff ..).mpr ⟨_, rfl, hv, proofOf_resign h1 h2 hp, rfl⟩
  | htlc c =>
    obtain ⟨t', rfl, hv, hp, rfl⟩ := (C61_debit_iff ..).mp hx
    cases h with
    | extended t p s s' vsh nid h1 h2 =>
      exact (C61_debit_iff ..).mpr ⟨_, rfl, hv, htlcProof_resign h1 h2 rfl hp, rfl⟩

/-! ## Lists of transactions -/

theorem forall2_filterMap {α β : Type} {R : α → α → Prop} {p : α → Bool} {g : α → β} {l l' : List α}
    (h : List.Forall₂ R l l') (hp : ∀ a b, R a b → p a = p b) (hg : ∀ a b, R a b → g a = g b) :
    (l.filter p).map g = (l'.filter p).map g := by
  induction h with
  | nil => rfl
  | cons hab _ ih =>
    rename_i a b l l' _
    by_cases ha : p a = true
    · rw [List.filter_cons_of_pos ha, List.filter_cons_of_pos (by rw [← hp a b hab]; exact ha), List.map_cons, List.map_cons, ih,
        hg a b hab]
    · rw [List.filter_cons_of_neg ha, List.filter_cons_of_neg (by rw [← hp a b hab]; exact ha), ih]

theorem forall2_symm {α : Type} {R : α → α → Prop} (hs : ∀ a b, R a b → R b a) {l l' : List α} (h : List.Forall₂ R l l') :
    List.Forall₂ R l' l := by
  induction h with
  | nil => exact .nil
  | cons hab _ ih => exact .cons (hs _ _ hab) ih

theorem forall2_split {α : Type} {R : α → α → Prop} : ∀ {l l' pre post : List α} {x : α}, List.Forall₂ R l l' →
    l = pre ++ x :: post → ∃ pre' x' post', l' = pre' ++ x' :: post' ∧ List.Forall₂ R pre pre' ∧ R x x' := by
  intro l l' pre
  induction pre generalizing l l' with
  | nil =>
    rintro post x h rfl
    cases h with
    | cons hab hl => exact ⟨[], _, _, rfl, .nil, hab⟩
  | cons p pre ih =>
    rintro post x h rfl
    cases h with
    | cons hab hl =>
      obtain ⟨pre', x', post', rfl, h1, h2⟩ := ih hl rfl
      exact ⟨_ :: pre', x', post', rfl, .cons hab h1, h2⟩

theorem forall2_mem {α : Type} {R : α → α → Prop} {l l' : List α} (h : List.Forall₂ R l l') {x : α} (hx : x ∈ l) :
    ∃ x' ∈ l', R x x' := by
  induction h with
  | nil => cases hx
  | cons hab _ ih =>
    rcases List.mem_cons.mp hx with rfl | hx
    · exact ⟨_, List.mem_cons_self .., hab⟩
    · obtain ⟨x', h1, h2⟩ := ih hx
      exact ⟨x', List.mem_cons_of_mem _ h1, h2⟩

section
variable {l l' : List Tx} (h : List.Forall₂ SameButUnchecked l l')
include h

theorem resign_senders (H : Bytes → Hash32) (m : AMap) : afterSenders H l m = afterSenders H l' m := by
  funext a
  unfold afterSenders sentBy
  rw [forall2_filterMap (g := debit (m a)) h]
  · intro t u htu; rw [((SameButUnchecked.eqs htu H)).1]
  · intro t u htu
    have := (SameButUnchecked.eqs htu H).2.2.1
    cases m a <;> simp [debit, this]

theorem resign_recipients (m : AMap) : afterRecipients l m = afterRecipients l' m := by
  funext a
  unfold afterRecipients receivedBy
  rw [forall2_filterMap (g := fun tx : Tx => tx.amount.1) h]
  · intro t u htu; rw [((SameButUnchecked.eqs htu (fun _ => BArr.zero 32))).2.1]
  · intro t u htu
    rw [((SameButUnchecked.eqs htu (fun _ => BArr.zero 32))).2.2.1]

theorem resign_create (height : UInt32) (m : AMap) : afterCreate height l m = afterCreate height l' m := by
  funext a
  have key : (lastCreate a l).map (fun tx => contractOf tx height (balance (m a))) =
      (lastCreate a l').map (fun tx => contractOf tx height (balance (m a))) := by
    unfold lastCreate
    rw [← List.getLast?_map, ← List.getLast?_map, forall2_filterMap h]
    · intro t u htu
      obtain ⟨_, e1, _, e2, _⟩ := SameButUnchecked.eqs htu (fun _ => BArr.zero 32)
      rw [e1, e2]
    · intro t u htu
      exact (SameButUnchecked.eqs htu (fun _ => BArr.zero 32)).2.2.2.2 _ _
  unfold afterCreate
  cases h1 : lastCreate a l with
  | none =>
    cases h2 : lastCreate a l' with
    | none => rfl
    | some t2 => rw [h1, h2] at key; cases key
  | some t1 =>
    cases h2 : lastCreate a l' with
    | none => rw [h1, h2] at key; cases key
    | some t2 =>
      rw [h1, h2] at key
      simp only [Option.map_some, Option.some.injEq] at key
      simp only [key]

theorem resign_sends (H : Bytes → Hash32) (a : Addr) (ha : Sends H l a) : Sends H l' a := by
  obtain ⟨t, ht, e⟩ := ha
  obtain ⟨u, hu, htu⟩ := forall2_mem h ht
  exact ⟨u, hu, by rw [← (SameButUnchecked.eqs htu H).1, e]⟩

theorem resign_fees : (l.map fun tx : Tx => tx.amount.2).sum = (l'.map fun tx : Tx => tx.amount.2).sum := by
  have := forall2_filterMap (p := fun _ => true) (g := fun tx : Tx => tx.amount.2) h (fun _ _ _ => rfl) (by
    intro t u htu; rw [((SameButUnchecked.eqs htu (fun _ => BArr.zero 32))).2.2.1])
  simpa using congrArg List.sum this

end

theorem resign_prune {l l' : List Tx} (h : List.Forall₂ SameButUnchecked l l') (H : Bytes → Hash32) (m : AMap) :
    afterPrune H l m = afterPrune H l' m := by
  funext a
  unfold afterPrune
  have : Sends H l a ↔ Sends H l' a :=
    ⟨resign_sends h H a, resign_sends (forall2_symm (fun _ _ => SameButUnchecked.symm) h) H a⟩
  by_cases hc : Sends H l a ∧ Dead (m a)
  · rw [if_pos hc, if_pos ⟨this.mp hc.1, hc.2⟩]
  · rw [if_neg hc, if_neg fun hc' => hc ⟨this.mpr hc'.1, hc'.2⟩]

theorem push_resign {m m' : AMap} {height : UInt32} {hash : Hash32} {c : Addr} {l l' : List Tx}
    {pruned : List (Addr × Option Account)} (h : List.Forall₂ SameButUnchecked l l')
    (hp : push E mapLedger ⟨height, hash, some ⟨c, l, pruned⟩⟩ m = (.ok (), m')) :
    push E mapLedger ⟨height, hash, some ⟨c, l', pruned⟩⟩ m = (.ok (), m') := by
  obtain ⟨body, hb, h0, s1, s2, s3, s4, s5, s6⟩ := push_iff.mp hp
  cases hb
  have hsym := forall2_symm (fun _ _ => SameButUnchecked.symm) h
  have hT : afterTransfers E ⟨height, hash, some ⟨c, l', pruned⟩⟩ ⟨c, l', pruned⟩ m =
      afterTransfers E ⟨height, hash, some ⟨c, l, pruned⟩⟩ ⟨c, l, pruned⟩ m := by
    show afterCreate height l' (afterRecipients l' (afterSenders E.H l' m)) =
      afterCreate height l (afterRecipients l (afterSenders E.H l m))
    rw [resign_senders h, resign_recipients h, resign_create h]
  refine push_iff.mpr ⟨_, rfl, h0, ?_, ?_, ?_, ?_, ?_, ?_⟩
  · intro pre tx post he
    obtain ⟨pre', tx', post', he', h1, h2⟩ := forall2_split hsym he
    obtain ⟨k1, x, k2⟩ := s1 pre' tx' post' he'
    have e := (SameButUnchecked.eqs h2 E.H).1
    rw [← resign_senders h1, ← e] at k1 k2
    exact ⟨k1, x, SameButUnchecked.outgoing (SameButUnchecked.symm h2) k2⟩
  · intro tx ht
    obtain ⟨tx', ht', h2⟩ := forall2_mem hsym ht
    obtain ⟨_, e1, _, e2, _⟩ := SameButUnchecked.eqs h2 E.H
    have := s2 tx' ht'
    unfold RecipientOk at this ⊢
    rw [e1, e2]; exact this
  · intro tx ht hc
    obtain ⟨tx', ht', h2⟩ := forall2_mem hsym ht
    obtain ⟨_, _, _, e2, e3⟩ := SameButUnchecked.eqs h2 E.H
    obtain ⟨x, hx⟩ := s3 tx' ht' (by rw [← e2]; exact hc)
    exact ⟨x, by rw [e3]; exact hx⟩
  · rw [hT]
    exact ⟨fun a ha hd => s4.1 a (resign_sends hsym E.H a ha) hd, fun a ha => by
      obtain ⟨k1, k2⟩ := s4.2 a ha
      exact ⟨resign_sends h E.H a k1, k2⟩⟩
  · rw [hT, ← resign_prune h]; exact s5
  · rw [hT, ← resign_prune h, s6]
    unfold afterInherents
    simp only []
    rw [resign_fees h]

theorem SameButSignature.unchecked {t u : Tx} (h : SameButSignature t u) : SameButUnchecked t u := by
  cases h with
  | basic t sig => exact .basic t t.validityStartHeight t.networkID sig
  | extended t p s s' h1 h2 => exact .extended t p s s' t.validityStartHeight t.networkID h1 h2

theorem forall2_imp {α : Type} {R S : α → α → Prop} (hs : ∀ a b, R a b → S a b) {l l' : List α} (h : List.Forall₂ R l l') :
    List.Forall₂ S l l' := by
  induction h with
  | nil => exact .nil
  | cons hab _ ih => exact .cons (hs _ _ hab) ih

/-- C83 is false: neither the validity start height nor the network id of a transaction is looked at (nor its signature, C62).
Replacing them in any number of transactions of a block by any other values makes no difference - the block is accepted iff it
was, with the same resulting accounts. -/
theorem C83_validity_network_ignored_violated (hn : Reach E n) (height : UInt32) (hash : Hash32) (c : Addr)
    (pruned : List (Addr × Option Account)) (l l' : List Tx) (h : List.Forall₂ SameButUnchecked l l') :
    ((Push E ⟨height, hash, some ⟨c, l, pruned⟩⟩ n).1 = .ok () ↔ (Push E ⟨height, hash, some ⟨c, l', pruned⟩⟩ n).1 = .ok ()) ∧
    ((Push E ⟨height, hash, some ⟨c, l, pruned⟩⟩ n).1 = .ok () →
      accountOf (Push E ⟨height, hash, some ⟨c, l, pruned⟩⟩ n).2 = accountOf (Push E ⟨height, hash, some ⟨c, l', pruned⟩⟩ n).2) := by
  have q1 := hn.push_eq ⟨height, hash, some ⟨c, l, pruned⟩⟩
  have q2 := hn.push_eq ⟨height, hash, some ⟨c, l', pruned⟩⟩
  have key : ∀ (l l' : List Tx), List.Forall₂ SameButUnchecked l l' →
      (push E mapLedger ⟨height, hash, some ⟨c, l, pruned⟩⟩ (accountOf n)).1 = .ok () →
      push E mapLedger ⟨height, hash, some ⟨c, l', pruned⟩⟩ (accountOf n) =
        push E mapLedger ⟨height, hash, some ⟨c, l, pruned⟩⟩ (accountOf n) := by
    intro l l' h hok
    rw [push_resign h (Prod.ext hok rfl)]
    exact Prod.ext hok.symm rfl
  rw [q1.1, q1.2, q2.1, q2.2]
  refine ⟨⟨fun hok => ?_, fun hok => ?_⟩, fun hok => ?_⟩
  · rw [key l l' h hok]; exact hok
  · rw [key l' l (forall2_symm (fun _ _ => SameButUnchecked.symm) h) hok]; exact hok
  · rw [key l l' h hok]

/-- C62 is false: replacing any number of signatures in a block by any other bytes of the same length makes no difference -
the block is accepted iff it was, with the same resulting accounts. -/
theorem C62_signatures_ignored_violated (hn : Reach E n) (height : UInt32) (hash : Hash32) (c : Addr)
    (pruned : List (Addr × Option Account)) (l l' : List Tx) (h : List.Forall₂ SameButSignature l l') :
    ((Push E ⟨height, hash, some ⟨c, l, pruned⟩⟩ n).1 = .ok () ↔ (Push E ⟨height, hash, some ⟨c, l', pruned⟩⟩ n).1 = .ok ()) ∧
    ((Push E ⟨height, hash, some ⟨c, l, pruned⟩⟩ n).1 = .ok () →
      accountOf (Push E ⟨height, hash, some ⟨c, l, pruned⟩⟩ n).2 = accountOf (Push E ⟨height, hash, some ⟨c, l', pruned⟩⟩ n).2) :=
  C83_validity_network_ignored_violated hn height hash c pruned l l' (forall2_imp (fun _ _ => SameButSignature.unchecked) h)

example (t : BasicTx) (sig : BArr 64) : List.Forall₂ SameButSignature [.basic t] [.basic { t with signature := sig }] :=
  .cons (.basic t sig) .nil

/-- Any transaction can be moved to any network and any validity window. -/
example (t : BasicTx) (start : UInt32) (network : UInt8) : List.Forall₂ SameButUnchecked [.basic t]
    [.basic { t with validityStartHeight := start, networkID := network }] :=
  .cons (.basic t start network t.signature) .nil

end Nimiq.Accounts
