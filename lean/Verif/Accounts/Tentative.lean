import Verif.Accounts.Observe
import Verif.Tree.Discard
/-!
# C129, accounts: a block pushed on an overlay, and given up or written down

`Push` does not undo what it has done when it fails (C56). The way to get an atomic push that the package offers is an
`OverlayStore` over the store of the accounts: push, then `Flush` if it went well, else drop the overlay.
-/
namespace Nimiq.Accounts
open Beserial Beserial.Spec Wire Spec Tree.Generic

variable {E : Env} {n : Node} {m : AMap}

/-- The accounts on a new overlay (with its map made) over their store. -/
def tentative (n : Node) : Node := { n with tree := Tree.onOverlay n.tree }

/-- The accounts on the store `lower` again. -/
def backOn (lower : Tree.Store) (n : Node) : Node := { n with tree := Tree.giveUp lower n.tree }

theorem tentative_rel (h : Rel E.H n m) : Rel E.H (tentative n) m := ⟨Tree.push_inv h.tree, h.cache⟩

/-- The writes of a push on any tree. -/
theorem push_puts (h : Rel E.H n m) (block : Block) : ∃ q, Tree.runPuts E.H q n.tree = some (Push E block n).2.tree := by
  obtain ⟨p, hp'⟩ := HasProg.push E block
  have hp : ∀ σ (L : Ledger σ), push E L block = p.run L := hp'
  obtain ⟨q, -, -, -, q4, -⟩ := prog_writes (H := E.H) p n _ h []
  refine ⟨q, ?_⟩
  show _ = some (push E (nodeLedger E.H) block n).2.tree
  rw [hp]; exact q4

theorem entryOf_inj {x y : Account} (h : entryOf x = entryOf y) : x = y := by
  by_cases hx : x = initialAccount <;> by_cases hy : y = initialAccount
  · rw [hx, hy]
  · simp only [entryOf, if_pos hx, if_neg hy] at h
    exact absurd h.symm (accountLayout_ne_nil y)
  · simp only [entryOf, if_neg hx, if_pos hy] at h
    exact absurd h (accountLayout_ne_nil x)
  · simp only [entryOf, if_neg hx, if_neg hy] at h
    have h1 := (C40_round_trip x [] []).2
    have h2 := (C40_round_trip y [] []).2
    rw [h, h2] at h1
    simpa using h1.symm

/-- Accounts only depend on what the entries are. -/
theorem getAccount_of_entry {n : Node} {b : Addr} {x : Account} {t : Tree.World}
    (h : Tree.getEntry b n.tree = some (if entryOf x = [] then none else some (entryOf x), t)) :
    (Node.getAccount b n).1 = .ok x := by
  have h' : getEntryAcross b n.tree n.tree = some (if entryOf x = [] then none else some (entryOf x)) := by
    rw [← C106_get_entry, h]; rfl
  rw [C128_get_account]
  refine decode_entryOf h' ?_
  by_cases hx : entryOf x = [] <;> simp [hx]

/-- What all of C129 follows from. -/
theorem tentative_spec (hn : Reach E n) (block : Block) :
    (Push E block (tentative n)).1 = (Push E block n).1 ∧
    accountOf (Push E block (tentative n)).2 = accountOf (Push E block n).2 ∧
    ∃ q, Tree.runPuts E.H q (Tree.onOverlay n.tree) = some (Push E block (tentative n)).2.tree ∧
      Tree.after (fun a => entryOf (accountOf n a)) q = fun a => entryOf (accountOf (Push E block n).2 a) := by
  have h0 := hn.acc
  have h1 := h0.push block
  have h2 := (tentative_rel h0).push block
  obtain ⟨q, hq⟩ := push_puts (tentative_rel h0) block
  refine ⟨h2.1.trans h1.1.symm, by rw [h1.2.accountOf, h2.2.accountOf], q, hq, ?_⟩
  obtain ⟨w', e1, e2⟩ := Tree.runPuts_after q (Tree.push_inv h0.tree)
  have e1' : Tree.runPuts E.H q (Tree.onOverlay n.tree) = some w' := e1
  have hq' : Tree.runPuts E.H q (Tree.onOverlay n.tree) = some (Push E block (tentative n)).2.tree := hq
  rw [hq'] at e1'
  cases e1'
  rw [inv_unique e2 h2.2.tree, h1.2.accountOf]

/-- C129. A block is pushed on an overlay: the outcome is that of pushing it on the accounts themselves, and after `Flush`, in
whatever order it visits the entries, the accounts on the lower store are those after the push and so is their hash. -/
theorem C129_push_flush (hn : Reach E n) (block : Block) :
    let r := Push E block (tentative n)
    r.1 = (Push E block n).1 ∧ ∃ d, r.2.tree.store = .overlay n.tree.store (some d) ∧ ∀ order, order.Perm d →
      ∃ lower, r.2.tree.store.flush order = some (.overlay lower (some [])) ∧
        (∀ b, (Node.getAccount b (backOn lower r.2)).1 = (Node.getAccount b (Push E block n).2).1) ∧
        (Node.hash E.H (backOn lower r.2)).1 = (Node.hash E.H (Push E block n).2).1 := by
  intro r
  obtain ⟨h1, h2, q, hq, hM⟩ := tentative_spec hn block
  refine ⟨h1, ?_⟩
  have hm := (hn.acc.push block).2
  obtain ⟨w', d, e1, e2, I', -, -, -⟩ := Tree.giveUp_spec (H := E.H) hn.acc.tree q
  rw [hq] at e1
  cases e1
  rw [hM] at I'
  have hu := I'.wf.usable
  rw [e2] at hu
  obtain ⟨hu1, d', rfl, hu2⟩ := hu
  refine ⟨d', e2, fun order ho => ?_⟩
  obtain ⟨l', f1, f2, f3⟩ := Tree.flush_spec hu1 hu2 ho
  refine ⟨l', by show Tree.Store.flush _ _ = _; rw [e2]; exact f1, ?_⟩
  have hg : ∀ k, l'.get k = r.2.tree.store.get k := fun k => by show _ = (Push E block (tentative n)).2.tree.store.get k; rw [e2]; exact f3 k
  have hv : (Tree.giveUp l' r.2.tree).view = r.2.tree.view := by
    funext k; simp only [Tree.World.view, Tree.giveUp, hg]
  have I2 : Tree.TreeInv E.H (Tree.giveUp l' r.2.tree) fun a => entryOf (accountOf (Push E block n).2 a) := by
    refine ⟨⟨f2, ?_, ?_⟩, ?_, ?_, ?_⟩
    · intro k p h; exact I'.wf.alloc ((hg k).symm.trans h)
    · intro k k' p h h'; exact I'.wf.inj ((hg k).symm.trans h) ((hg k').symm.trans h')
    · rw [hv]; exact I'.loc
    · rw [hv]; exact I'.clean
    · rw [hv]; exact I'.map
  have R2 : Rel E.H (backOn l' r.2) (accountOf (Push E block n).2) := ⟨I2, ((tentative_rel hn.acc).push block).2.cache⟩
  have hm' : Rel E.H (Push E block n).2 (accountOf (Push E block n).2) := by rw [hm.accountOf]; exact hm
  refine ⟨fun b => ?_, ?_⟩
  · rw [R2.getAccount, hm'.getAccount]
  · rw [R2.hash, hm'.hash]

/-- C129. When the overlay is dropped after the push, whatever its outcome, every account reads as before the push. -/
theorem C129_push_reads_partial (hn : Reach E n) (block : Block) (b : Addr) :
    (Node.getAccount b (backOn n.tree.store (Push E block (tentative n)).2)).1 = (Node.getAccount b n).1 := by
  obtain ⟨-, -, q, hq, -⟩ := tentative_spec hn block
  obtain ⟨w', d, e1, -, -, e2, -⟩ := Tree.giveUp_spec (H := E.H) hn.acc.tree q
  rw [hq] at e1
  cases e1
  rw [hn.acc.getAccount b]
  exact getAccount_of_entry (e2 b)

/-- C129 is false of `Hash`: when the overlay is dropped, the hash of the accounts is that of the accounts the push would have
left, whatever the block and whatever the outcome of the push. -/
theorem C129_push_hash_violated (hn : Reach E n) (block : Block) :
    (Node.hash E.H (backOn n.tree.store (Push E block (tentative n)).2)).1 = (Node.hash E.H (Push E block n).2).1 := by
  obtain ⟨-, -, q, hq, hM⟩ := tentative_spec hn block
  obtain ⟨w', d, e1, -, -, -, e2, -⟩ := Tree.giveUp_spec (H := E.H) hn.acc.tree q
  rw [hq] at e1
  cases e1
  have hm := (hn.acc.push block).2
  have hm' : Rel E.H (Push E block n).2 (accountOf (Push E block n).2) := by rw [hm.accountOf]; exact hm
  rw [hm'.hash, ← hM]
  unfold Node.hash
  have e2' : Tree.hash E.H (backOn n.tree.store (Push E block (tentative n)).2).tree = _ := e2
  rw [e2']

/-- C129, the purpose missed. The second of two transactions overspends, so that the push on the overlay fails; the overlay is
dropped. Then all accounts read as before, but the hash of the accounts is another one than before, or `H` has a collision
(which is found among the strings hashed). -/
theorem C129_failed_push_violated (hn : Reach E n) (a b c d : Addr) (v : UInt64) (hv : v ≠ 0) (height : UInt32)
    (ha : accountOf n a = .basic ⟨v⟩) (hd : accountOf n d = .basic ⟨0⟩) (had : a ≠ d) (hab : a ≠ b)
    (hash : Hash32) (proof : Bytes) :
    let block : Block := ⟨height, hash, some ⟨c, [.extended ⟨[], a, 0, b, 0, v, 0, 1, 1, 0, proof⟩,
      .extended ⟨[], d, 0, b, 0, 1, 0, 1, 1, 0, proof⟩], []⟩⟩
    let after := backOn n.tree.store (Push E block (tentative n)).2
    (∃ e, (Push E block (tentative n)).1 = .err e) ∧ (∀ x, (Node.getAccount x after).1 = (Node.getAccount x n).1) ∧
    ((Node.hash E.H after).1 = (Node.hash E.H n).1 → ∃ x y, x ≠ y ∧ E.H x = E.H y) := by
  intro block after
  obtain ⟨h1, h2, h3, -, -⟩ := C56_violated hn a b c d v hv height ha hd had hab hash proof
  refine ⟨?_, C129_push_reads_partial hn block, fun h => ?_⟩
  · obtain ⟨e, he⟩ := h1
    exact ⟨e, (tentative_spec hn block).1.trans he⟩
  · rw [C129_push_hash_violated hn block] at h
    have hm := (hn.acc.push block).2
    have hm' : Rel E.H (Push E block n).2 (accountOf (Push E block n).2) := by rw [hm.accountOf]; exact hm
    rw [hm'.hash, hn.acc.hash] at h
    simp only [Out.ok.injEq] at h
    rcases Tree.root_binding h with e | ⟨x, -, y, -, hxy, e⟩
    · exact absurd (entryOf_inj (congrFun e a)) h3
    · exact ⟨x, y, hxy, e⟩

/-- The hypotheses can be met: an account with 7 coins and an empty one. -/
example (E : Env) (a b c d : Addr) (had : a ≠ d) (hab : a ≠ b) : ∃ (n : Node) (block : Block), Reach E n ∧
    (∃ e, (Push E block (tentative n)).1 = .err e) ∧ accountOf n a = .basic ⟨7⟩ ∧
    ((Node.hash E.H (backOn n.tree.store (Push E block (tentative n)).2)).1 = (Node.hash E.H n).1 →
      ∃ x y, x ≠ y ∧ E.H x = E.H y) := by
  have hn : Reach E (Node.putAccount E.H a (some (.basic ⟨7⟩)) newNode).2 := .put _ _ .new
  have ha : accountOf (Node.putAccount E.H a (some (.basic ⟨7⟩)) newNode).2 a = .basic ⟨7⟩ := by
    rw [accountOf_put .new, AMap.set_same]
  have hd : accountOf (Node.putAccount E.H a (some (.basic ⟨7⟩)) newNode).2 d = .basic ⟨0⟩ := by
    rw [accountOf_put .new, AMap.set_ne _ _ (Ne.symm had), accountOf_new]
  have := C129_failed_push_violated hn a b c d 7 (by decide) 1 ha hd had hab (BArr.zero 32) []
  exact ⟨_, _, hn, this.1, ha, this.2.2⟩

end Nimiq.Accounts
