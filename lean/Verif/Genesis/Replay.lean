import Verif.Genesis.Profile
import Verif.Genesis.Props
/-!
# C69, C80: replaying an archive
-/
namespace Nimiq.Genesis
open Beserial Wire Accounts Spec

variable {E : Env} {n n' : Node}

theorem must_ok {σ α : Type} {x : M σ α} {s s' : σ} {a : α} : must x s = (.ok a, s') ↔ x s = (.ok a, s') := by
  unfold must
  rcases x s with ⟨o, t⟩
  cases o <;> simp

theorem must_ne_err {σ α : Type} (x : M σ α) (s : σ) (e : Err) : (must x s).1 ≠ .err e := by
  unfold must
  rcases x s with ⟨o, t⟩
  cases o <;> simp

theorem replayBlock_ok (hn : Reach E n) {block : Block} {k : Nat} : replayBlock E block n = (.ok k, n') ↔
    Push E block n = (.ok (), n') ∧ (Node.hash E.H n').1 = .ok block.accountsHash ∧ k = txCount block := by
  unfold replayBlock
  rw [M.bind_ok]
  constructor
  · rintro ⟨u, n1, h1, h2⟩
    rw [must_ok] at h1
    have hr : Reach E n1 := by have := Reach.push block hn; rwa [h1] at this
    rw [M.bind_eq, hr.acc.hash] at h2
    simp only [] at h2
    split at h2
    · cases h2
    · rename_i hh
      have hh := not_not.mp hh
      cases hb : block.body with
      | none => rw [hb] at h2; cases h2
      | some body =>
        rw [hb] at h2
        simp only [M.pure_eq] at h2
        cases h2
        exact ⟨h1, by rw [hr.acc.hash, hh], by simp [txCount, hb]⟩
  · rintro ⟨h1, h2, rfl⟩
    refine ⟨(), n', must_ok.mpr h1, ?_⟩
    have hr : Reach E n' := by have := Reach.push block hn; rwa [h1] at this
    rw [hr.acc.hash] at h2
    rw [M.bind_eq, hr.acc.hash]
    simp only []
    rw [if_neg (by rw [Out.ok.inj h2]; simp)]
    obtain ⟨body, hb, _⟩ := push_iff.mp (push_map hn h1)
    simp only [hb, txCount, M.pure_eq]

theorem replayLoop_ok {clean : Bool} : ∀ (entries : List (Option Bytes)) {n : Node} (b t b' t' : Nat), Reach E n →
    (replayLoop E clean entries b t n = (.ok (b', t'), n') ↔
      clean = true ∧ ∃ blocks, List.Forall₂ Holds entries blocks ∧ Replayed E n blocks n' ∧
        b' = b + blocks.length ∧ t' = t + (blocks.map txCount).sum) := by
  intro entries
  induction entries with
  | nil =>
    intro n b t b' t' hn
    simp only [replayLoop]
    cases clean with
    | false => simp [M.panic_eq]
    | true =>
      simp only [if_true, M.pure_eq, true_and]
      constructor
      · intro h; cases h; exact ⟨[], .nil, .nil, by simp, by simp⟩
      · rintro ⟨blocks, h1, h2, rfl, rfl⟩
        cases h1; cases h2; simp
  | cons e entries ih =>
    intro n b t b' t' hn
    cases e with
    | none =>
      simp only [replayLoop, M.panic_eq]
      constructor
      · intro h; cases h
      · rintro ⟨_, blocks, h1, _⟩
        cases h1 with
        | cons h _ => obtain ⟨buf, v, h, _⟩ := h; cases h
    | some buf =>
      simp only [replayLoop]
      rw [M.bind_ok]
      constructor
      · rintro ⟨v, s, h1, h2⟩
        rw [must_ok, M.lift_eq] at h1
        obtain ⟨hd, hs⟩ := Prod.mk.inj h1
        subst hs
        obtain ⟨block, hb⟩ := decoded_full hd
        rw [hb] at h2
        simp only [] at h2
        rw [M.bind_ok] at h2
        obtain ⟨k, n1, h3, h4⟩ := h2
        obtain ⟨h5, h6, rfl⟩ := (replayBlock_ok hn).mp h3
        have hr : Reach E n1 := by have := Reach.push block hn; rwa [h5] at this
        obtain ⟨c, blocks, g1, g2, rfl, rfl⟩ := (ih _ _ _ _ hr).mp h4
        refine ⟨c, block :: blocks, .cons ⟨buf, v, rfl, hd, hb⟩ g1, .cons h5 h6 g2, ?_, ?_⟩
        · rw [List.length_cons]; omega
        · rw [List.map_cons, List.sum_cons]; omega
      · rintro ⟨c, blocks, g1, g2, rfl, rfl⟩
        cases g1 with
        | cons g g1 =>
          obtain ⟨buf', v, hbuf, h1, hb⟩ := g
          cases hbuf
          cases g2 with
          | cons h5 h6 g2 =>
            rename_i block blocks n1
            have hr : Reach E n1 := by have := Reach.push block hn; rwa [h5] at this
            refine ⟨v, n, must_ok.mpr (by rw [M.lift_eq, h1]), ?_⟩
            rw [hb]
            simp only []
            rw [M.bind_ok]
            refine ⟨_, n1, (replayBlock_ok hn).mpr ⟨h5, h6, rfl⟩, ?_⟩
            refine (ih _ _ _ _ hr).mpr ⟨c, blocks, g1, g2, ?_, ?_⟩
            · rw [List.length_cons]; omega
            · rw [List.map_cons, List.sum_cons]; omega

theorem init_reach (hn : Reach E n) {l : List (Addr × Option Account)} {block : Block}
    (h : initAccounts E l block n = (.ok (), n')) : Reach E n' := by
  obtain ⟨n0, h1, _, h3⟩ := C68_iff (E := E) hn l block
  have := Reach.push block h1
  rwa [((h3 n').mp h).1] at this

/-- C69. The replay ends normally, reporting `b` blocks and `t` transactions, iff the profile opens and initialises the
state, the archive ends properly, and its entries except the first are readable, decode completely to blocks, and these
push one after the other without error, each leaving the state hash of its header; then `b` and `t` count those blocks and
their transactions. -/
theorem C69_iff (E : Env) (config : Option Config) (blockBuf accountsBuf : Option Bytes) (archive : Archive) (b t : Nat)
    (n' : Node) :
    gimiq E config blockBuf accountsBuf archive newNode = (.ok (b, t), n') ↔
      ∃ p genesis n0 blocks, openProfile config blockBuf accountsBuf = .ok p ∧ Block.ofVal p.block = some genesis ∧
        initAccounts E p.accounts genesis newNode = (.ok (), n0) ∧ archive.clean = true ∧
        List.Forall₂ Holds (archive.entries.drop 1) blocks ∧ Replayed E n0 blocks n' ∧
        b = blocks.length ∧ t = (blocks.map txCount).sum := by
  unfold gimiq
  rw [M.bind_ok]
  constructor
  · rintro ⟨p, s, h1, h2⟩
    rw [must_ok, M.lift_eq] at h1
    obtain ⟨hd, hs⟩ := Prod.mk.inj h1
    subst hs
    rw [M.bind_ok] at h2
    obtain ⟨u, n0, h3, h4⟩ := h2
    rw [must_ok] at h3
    obtain ⟨_, genesis, hg⟩ := C78_no_nil _ _ _ _ hd
    unfold Profile.initAccounts at h3
    rw [hg] at h3
    obtain ⟨c, blocks, g1, g2, rfl, rfl⟩ := (replayLoop_ok _ _ _ _ _ (init_reach .new h3)).mp h4
    exact ⟨p, genesis, n0, blocks, hd, hg, h3, c, g1, g2, by simp, by simp⟩
  · rintro ⟨p, genesis, n0, blocks, h1, hg, h3, c, g1, g2, rfl, rfl⟩
    refine ⟨p, newNode, must_ok.mpr (by rw [M.lift_eq, h1]), ?_⟩
    rw [M.bind_ok]
    refine ⟨(), n0, must_ok.mpr (by simp only [Profile.initAccounts, hg]; exact h3), ?_⟩
    exact (replayLoop_ok _ _ _ _ _ (init_reach .new h3)).mpr ⟨c, blocks, g1, g2, by simp, by simp⟩

/-- C69. There is no third way: the program prints its report or panics. -/
theorem C69_ends (E : Env) (config : Option Config) (blockBuf accountsBuf : Option Bytes) (archive : Archive) (e : Err) :
    (gimiq E config blockBuf accountsBuf archive newNode).1 ≠ .err e := by
  have key : ∀ (entries : List (Option Bytes)) (n : Node) (b t : Nat), Reach E n →
      (replayLoop E archive.clean entries b t n).1 ≠ .err e := by
    intro entries
    induction entries with
    | nil =>
      intro n b t _
      simp only [replayLoop]
      split <;> simp [M.pure_eq, M.panic_eq]
    | cons x entries ih =>
      intro n b t hn
      cases x with
      | none => simp [replayLoop, M.panic_eq]
      | some buf =>
        simp only [replayLoop]
        rw [M.bind_eq]
        have := must_ne_err (M.lift (σ := Node) (UnmarshalFull blockTy blockTy.zero buf)) n
        rcases hx : must (M.lift (UnmarshalFull blockTy blockTy.zero buf)) n with ⟨o, s⟩
        rw [hx] at this
        cases o with
        | err e' => exact absurd rfl (this e')
        | panic => simp
        | ok v =>
          have h1 := must_ok.mp hx
          rw [M.lift_eq] at h1
          obtain ⟨h1, rfl⟩ := Prod.mk.inj h1
          simp only []
          cases hb : Block.ofVal v with
          | none => simp [M.panic_eq]
          | some block =>
            simp only []
            rw [M.bind_eq]
            have hne : ∀ e', (replayBlock E block n).1 ≠ .err e' := by
              intro e'
              unfold replayBlock
              rw [M.bind_eq]
              have := must_ne_err (Push E block) n
              rcases hp : must (Push E block) n with ⟨o, s⟩
              rw [hp] at this
              cases o with
              | err e' => exact absurd rfl (this e')
              | panic => simp
              | ok u =>
                have hr : Reach E s := by
                  have h0 := Reach.push block hn
                  rw [must_ok.mp hp] at h0; exact h0
                simp only []
                rw [M.bind_eq, hr.acc.hash]
                simp only []
                split
                · simp [M.panic_eq]
                · cases block.body <;> simp [M.panic_eq, M.pure_eq]
            rcases hrb : replayBlock E block n with ⟨o, s⟩
            rw [hrb] at hne
            cases o with
            | err e' => exact absurd rfl (hne e')
            | panic => simp
            | ok k =>
              have hr : Reach E s := by
                have h0 := Reach.push block hn
                rw [((replayBlock_ok hn).mp hrb).1] at h0; exact h0
              exact ih s _ _ hr
  unfold gimiq
  rw [M.bind_eq]
  have h0 := must_ne_err (M.lift (σ := Node) (openProfile config blockBuf accountsBuf)) newNode
  rcases hx : must (M.lift (openProfile config blockBuf accountsBuf)) newNode with ⟨o, s⟩
  rw [hx] at h0
  cases o with
  | err e' => exact absurd rfl (h0 e')
  | panic => simp
  | ok p =>
    have h1 := must_ok.mp hx
    rw [M.lift_eq] at h1
    obtain ⟨hd, hs⟩ := Prod.mk.inj h1
    subst hs
    simp only []
    rw [M.bind_eq]
    have h2 := must_ne_err (p.initAccounts E) newNode
    rcases hy : must (p.initAccounts E) newNode with ⟨o, s⟩
    rw [hy] at h2
    cases o with
    | err e' => exact absurd rfl (h2 e')
    | panic => simp
    | ok u =>
      obtain ⟨_, genesis, hg⟩ := C78_no_nil _ _ _ _ hd
      have h3 := must_ok.mp hy
      unfold Profile.initAccounts at h3
      rw [hg] at h3
      exact key _ s 0 0 (init_reach .new h3)

/-! ## C80: the state after a replay is fixed by the last header -/

theorem replayed_reach {blocks : List Block} (h : Replayed E n blocks n') (hn : Reach E n) : Reach E n' := by
  induction h with
  | nil => exact hn
  | cons h1 _ _ ih =>
    rename_i n n1 n2 block blocks _ _
    exact ih (by have := Reach.push block hn; rwa [h1] at this)

theorem replayed_last {blocks : List Block} (h : Replayed E n blocks n') (hne : blocks ≠ []) :
    (Node.hash E.H n').1 = .ok (blocks.getLast hne).accountsHash := by
  induction h with
  | nil => exact absurd rfl hne
  | cons h1 h2 h3 ih =>
    rename_i n n1 n2 block blocks
    cases h3 with
    | nil => exact h2
    | cons g1 g2 g3 => rw [List.getLast_cons (by simp)]; exact ih (by simp)

theorem replayed_chain {blocks : List Block} (h : Replayed E n blocks n') : Chain E n blocks n' := by
  induction h with
  | nil => exact .nil
  | cons h1 _ _ ih => exact .cons h1 ih

/-- What the tree holds for each address. -/
def entries (acc : Addr → Account) : Tree.Spec.Mapping := fun a => if acc a = .basic ⟨0⟩ then [] else accountLayout (acc a)

/-- C80. Two replays, from any states, whose last blocks claim the same accounts hash end in the same accounts, or the
strings hashed for the two states contain a collision of the hash function. -/
theorem C80_state_pinned {m m' : Node} (hn : Reach E n) (hm : Reach E m) {bs cs : List Block} (h1 : Replayed E n bs n')
    (h2 : Replayed E m cs m') (hb : bs ≠ []) (hc : cs ≠ [])
    (heq : (bs.getLast hb).accountsHash = (cs.getLast hc).accountsHash) :
    accountOf n' = accountOf m' ∨
      Tree.CollisionIn E.H (Tree.Spec.rootStrings E.H (entries (accountOf n')))
        (Tree.Spec.rootStrings E.H (entries (accountOf m'))) := by
  have e1 := replayed_last h1 hb
  have e2 := replayed_last h2 hc
  have r1 := replayed_reach h1 hn
  have r2 := replayed_reach h2 hm
  rw [r1.acc.hash] at e1
  rw [r2.acc.hash] at e2
  have e := (Out.ok.inj e1).trans (heq.trans (Out.ok.inj e2).symm)
  rcases Tree.root_binding e with h | h
  · left
    funext a
    have := congrFun h a
    simp only [entryOf] at this
    by_cases ha : accountOf n' a = initialAccount
    · rw [if_pos ha] at this
      by_cases hb : accountOf m' a = initialAccount
      · rw [ha, hb]
      · rw [if_neg hb] at this
        exact absurd this.symm (accountLayout_ne_nil _)
    · rw [if_neg ha] at this
      by_cases hb : accountOf m' a = initialAccount
      · rw [if_pos hb] at this
        exact absurd this (accountLayout_ne_nil _)
      · rw [if_neg hb] at this
        have d1 := (C40_round_trip (accountOf n' a) [] []).2
        have d2 := (C40_round_trip (accountOf m' a) [] []).2
        rw [this, d2] at d1
        simpa using d1.symm
  · exact .inr h

end Nimiq.Genesis
