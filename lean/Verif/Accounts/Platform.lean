import Verif.Accounts.Single
/-!
# C117: nodes on different platforms

The Go specification leaves open which key of a map comes first and what `uint64(x)` is for a float `x ≥ 2^64`; they are
parameters of the model (`Env.pick`, `Env.conv`).  Here two nodes with different parameters push the same block.
-/
namespace Nimiq.Accounts
open Beserial Beserial.Spec Wire Spec Float64

/-! ## Specification -/

/-- Two errors of the same kind: the same, or they differ in the amount that was available or in which superfluous entry of the
prune list is named. -/
inductive ErrLike : Err → Err → Prop
  | refl (e : Err) : ErrLike e e
  | overspend (a b s : UInt64) : ErrLike (.overspend a s) (.overspend b s)
  | pruneEarly (a b : Addr) : ErrLike (.pruneEarly a) (.pruneEarly b)

/-- Two calls end in the same way. -/
inductive OutLike {α : Type} : Out α → Out α → Prop
  | ok (a : α) : OutLike (.ok a) (.ok a)
  | err {e e' : Err} (h : ErrLike e e') : OutLike (.err e) (.err e')
  | panic : OutLike .panic .panic

/-- The two platforms agree on whether transaction `tx` is within the unlocked amount of the contract `c`. -/
def AgreeOn (E E' : Env) (c : VestingAccount) (tx : Tx) (height : UInt32) : Prop :=
  ∀ t, tx = .extended t → (t.value ≤ amountUnlocked E c height ↔ t.value ≤ amountUnlocked E' c height)

/-! ## Lemmas -/

/-- Two results of a call on the map. -/
def Like {α : Type} (r s : Out α × AMap) : Prop := OutLike r.1 s.1 ∧ r.2 = s.2

theorem Like.refl {α : Type} (r : Out α × AMap) : Like r r := by
  refine ⟨?_, rfl⟩
  cases r.1 with
  | ok a => exact .ok a
  | err e => exact .err (.refl e)
  | panic => exact .panic

theorem Like.bind {α β : Type} {x y : M AMap α} {f g : α → M AMap β} {m : AMap} (h : Like (x m) (y m))
    (hf : ∀ a m', x m = (.ok a, m') → Like (f a m') (g a m')) : Like ((x >>= f) m) ((y >>= g) m) := by
  rw [M.bind_eq, M.bind_eq]
  obtain ⟨h1, h2⟩ := h
  rcases hx : x m with ⟨o, m'⟩
  rcases hy : y m with ⟨o', m''⟩
  rw [hx, hy] at h1 h2
  dsimp only at h1 h2
  subst h2
  cases h1 with
  | ok a => exact hf a _ hx
  | err e => exact ⟨.err e, rfl⟩
  | panic => exact ⟨.panic, rfl⟩

theorem like_forTxs {f g : Tx → M AMap Unit} (I : AMap → Prop) : ∀ (txs : List Tx)
    (_h : ∀ tx ∈ txs, ∀ m, I m → Like (f tx m) (g tx m) ∧ ∀ m', f tx m = (.ok (), m') → I m') (m : AMap), I m →
    Like (forTxs txs f m) (forTxs txs g m)
  | [], _, m, _ => Like.refl _
  | tx :: txs, h, m, hm => by
    have ht := h tx (by simp) m hm
    exact Like.bind ht.1 fun _ m' e => like_forTxs I txs (fun t hm => h t (by simp [hm])) m' (ht.2 m' e)

theorem like_outgoing {H : Bytes → Hash32} {p p' : (l : List Addr) → l ≠ [] → { a : Addr // a ∈ l }} {q q' : ℚ → UInt64}
    (acc : Account) (tx : Tx) (h : UInt32)
    (ha : ∀ c, acc = .vesting c → AgreeOn ⟨H, p, q⟩ ⟨H, p', q'⟩ c tx h) :
    OutLike (applyOutgoing ⟨H, p, q⟩ acc tx h) (applyOutgoing ⟨H, p', q'⟩ acc tx h) := by
  have rf : ∀ {x : Out Account}, OutLike x x := by
    intro x
    cases x with
    | ok a => exact .ok a
    | err e => exact .err (.refl e)
    | panic => exact .panic
  cases acc with
  | basic a => exact rf
  | htlc a => exact rf
  | vesting c =>
    cases tx with
    | basic t => exact rf
    | extended t =>
      have hag := ha c rfl t rfl
      show OutLike (vestingOutgoing ⟨H, p, q⟩ c (.extended t) h) (vestingOutgoing ⟨H, p', q'⟩ c (.extended t) h)
      simp only [vestingOutgoing, asExtendedPtr, Out.bind_ok]
      by_cases h1 : t.value > amountUnlocked ⟨H, p, q⟩ c h
      · have h2 : t.value > amountUnlocked ⟨H, p', q'⟩ c h :=
          UInt64.not_le.mp (fun hle => UInt64.not_le.mpr h1 (hag.mpr hle))
        rw [if_pos h1, if_pos h2]
        exact .err (.overspend _ _ _)
      · have h2 : ¬ t.value > amountUnlocked ⟨H, p', q'⟩ c h :=
          UInt64.not_lt.mpr (hag.mp (UInt64.not_lt.mp h1))
        rw [if_neg h1, if_neg h2]
        exact rf

/-- The contracts are those of `m0`, with other balances. -/
def SameContracts (m0 m : AMap) : Prop := ∀ a, ∃ v, m a = withBalance (m0 a) v

theorem pruneLoop_env {H : Bytes → Hash32} {p p' : (l : List Addr) → l ≠ [] → { a : Addr // a ∈ l }} {q q' : ℚ → UInt64} :
    ∀ (txs : List Tx) (pm : PruneMap), pruneLoop ⟨H, p, q⟩ mapLedger txs pm = pruneLoop ⟨H, p', q'⟩ mapLedger txs pm := by
  intro txs
  induction txs with
  | nil => intro pm; rfl
  | cons tx txs ih => intro pm; simp only [pruneLoop, ih]

theorem like_push {H : Bytes → Hash32} {p p' : (l : List Addr) → l ≠ [] → { a : Addr // a ∈ l }} {q q' : ℚ → UInt64}
    (block : Block) (m : AMap)
    (ha : ∀ body, block.body = some body → ∀ tx ∈ body.txs, ∀ c v, m (tx.getSender H).1 = .vesting c →
      AgreeOn ⟨H, p, q⟩ ⟨H, p', q'⟩ { c with value := v } tx block.height) :
    Like (push ⟨H, p, q⟩ mapLedger block m) (push ⟨H, p', q'⟩ mapLedger block m) := by
  unfold push
  cases hb : block.body with
  | none => exact Like.refl _
  | some body =>
    refine Like.bind ?_ fun _ m1 _ => ?_
    · refine like_forTxs (SameContracts m) body.txs ?_ m (fun a => ⟨balance (m a), by cases m a <;> rfl⟩)
      intro tx htx m1 hm1
      constructor
      · refine Like.bind (Like.refl _) fun acc m2 he => ?_
        obtain ⟨rfl, rfl⟩ : m1 (tx.content H).sender = acc ∧ m1 = m2 := by
          have := he
          simp only [mapLedger, Prod.mk.injEq, Out.ok.injEq] at this
          exact this
        dsimp only
        split
        · exact Like.refl _
        · refine Like.bind ⟨?_, rfl⟩ fun _ _ _ => Like.refl _
          apply like_outgoing
          intro c hc
          obtain ⟨v, hv⟩ := hm1 (tx.content H).sender
          have hs : (tx.getSender H).1 = (tx.content H).sender := by cases tx <;> rfl
          rw [hv] at hc
          cases hm0 : m (tx.content H).sender with
          | basic a => rw [hm0] at hc; cases hc
          | htlc a => rw [hm0] at hc; cases hc
          | vesting c0 =>
            rw [hm0] at hc
            cases hc
            exact ha body hb tx htx c0 v (by rw [hs]; exact hm0)
      · intro m2 he b
        have he : pushTx mapLedger (tx.content H).sender (tx.content H).senderType tx block.height
          (applyOutgoing ⟨H, p, q⟩) m1 = (.ok (), m2) := he
        rw [pushTx_map] at he
        split at he
        · cases he
        · cases hx : applyOutgoing ⟨H, p, q⟩ (m1 (tx.content H).sender) tx block.height with
          | ok x =>
            rw [hx] at he
            have he := congrArg Prod.snd he
            dsimp only at he
            rw [← he]
            by_cases hba : b = (tx.content H).sender
            · subst hba
              rw [AMap.set_same, applyOutgoing_ok hx]
              obtain ⟨v, hv⟩ := hm1 (tx.content H).sender
              exact ⟨_, by rw [hv, withBalance_withBalance]⟩
            · rw [AMap.set_ne _ _ hba]
              exact hm1 b
          | err e => rw [hx] at he; cases he
          | panic => rw [hx] at he; cases he
    · refine Like.bind (Like.refl _) fun _ m2 _ => ?_
      refine Like.bind (Like.refl _) fun _ m3 _ => ?_
      refine Like.bind ?_ fun _ m4 _ => Like.refl _
      unfold pruneAccounts
      rw [pruneLoop_env (p := p) (p' := p') (q := q) (q' := q')]
      refine Like.bind (Like.refl _) fun pm m4 _ => ?_
      dsimp only
      split
      · exact ⟨.err (.pruneEarly _ _), rfl⟩
      · exact Like.refl _

theorem agree_nodes {E E' : Env} (hH : E.H = E'.H) {n n' : Node} (hn : Reach E n) (hn' : Reach E' n')
    (hsame : ∀ a, (Node.getAccount a n).1 = (Node.getAccount a n').1) (block : Block)
    (ha : ∀ body, block.body = some body → ∀ tx ∈ body.txs, ∀ c v, accountOf n (tx.getSender E.H).1 = .vesting c →
      AgreeOn E E' { c with value := v } tx block.height) :
    OutLike (Push E block n).1 (Push E' block n').1 ∧
    (∀ a, (Node.getAccount a (Push E block n).2).1 = (Node.getAccount a (Push E' block n').2).1) ∧
    (Node.hash E.H (Push E block n).2).1 = (Node.hash E.H (Push E' block n').2).1 := by
  have hm : accountOf n = accountOf n' := by
    funext a; unfold accountOf; rw [hsame]
  have p1 := hn.acc.push block
  have p2 := hn'.acc.push block
  rw [← hm] at p2
  obtain ⟨H, p, q⟩ := E
  obtain ⟨H', p', q'⟩ := E'
  dsimp only at hH
  subst hH
  obtain ⟨l1, l2⟩ := like_push (p := p) (q := q) (p' := p') (q' := q') block (accountOf n) ha
  refine ⟨by rw [p1.1, p2.1]; exact l1, ?_, ?_⟩
  · intro a; rw [p1.2.getAccount, p2.2.getAccount, l2]
  · rw [p1.2.hash, p2.2.hash, l2]

/-- Beyond twice the range of `uint64` the answer is the platform's. -/
theorem amountUnlocked_beyond (E : Env) (c : VestingAccount) (h : UInt32) (hs : c.vestingStart < h)
    (hb : c.vestingStepBlocks ≠ 0) (hge : 2 ^ 65 * c.vestingStepBlocks.toNat ≤
      (h.toNat - c.vestingStart.toNat) * c.vestingStepAmount.toNat) : ∃ x, amountUnlocked E c h = E.conv x := by
  have hb' : 0 < c.vestingStepBlocks.toNat := by
    rcases Nat.eq_zero_or_pos c.vestingStepBlocks.toNat with h | h
    · exact absurd (UInt32.toNat_inj.mp h) hb
    · exact h
  have ha : c.vestingStepAmount ≠ 0 := by
    intro h0
    rw [h0] at hge
    simp at hge
    omega
  have hlt := h.toNat_lt
  have hbq : (0 : ℚ) < c.vestingStepBlocks.toNat := by exact_mod_cast hb'
  have h1 := (rawUnlocked_error c (d := h.toNat - c.vestingStart.toNat) (by omega)).1
  have h2 : (2 : ℚ) ^ 65 ≤ ((h.toNat - c.vestingStart.toNat : ℕ) : ℚ) / c.vestingStepBlocks.toNat * c.vestingStepAmount.toNat := by
    rw [div_mul_eq_mul_div, le_div_iff₀ hbq]
    exact_mod_cast hge
  have h3 : (1 / 2 : ℚ) ≤ (1 - 1 / 2 ^ 53) ^ 3 := by norm_num
  have h4 : ¬ rawUnlocked c (h.toNat - c.vestingStart.toNat) < 2 ^ 64 := by
    have := mul_le_mul h2 h3 (by norm_num) (le_trans (by norm_num) h2)
    apply not_lt.mpr
    calc (2 : ℚ) ^ 64 = 2 ^ 65 * (1 / 2) := by norm_num
      _ ≤ _ := le_trans this h1
  rw [amountUnlocked_eq hs hb ha, if_neg h4]
  exact ⟨_, rfl⟩

/-! ## C117 -/

/-- C117, what holds on the platforms Go runs on (where a conversion out of range yields at least `2^63`): two nodes with the
same accounts agree on every block whose transactions have values of at most `2^63`: the same verdict, the same accounts and
the same state hash. -/
theorem C117_agree_partial {E E' : Env} (hH : E.H = E'.H) (hc : ∀ x, 9223372036854775808 ≤ E.conv x) (hc' : ∀ x, 9223372036854775808 ≤ E'.conv x)
    {n n' : Node} (hn : Reach E n) (hn' : Reach E' n')
    (hsame : ∀ a, (Node.getAccount a n).1 = (Node.getAccount a n').1) (block : Block)
    (hv : ∀ body, block.body = some body → ∀ tx ∈ body.txs, tx.amount.1 ≤ 9223372036854775808) :
    OutLike (Push E block n).1 (Push E' block n').1 ∧
    (∀ a, (Node.getAccount a (Push E block n).2).1 = (Node.getAccount a (Push E' block n').2).1) ∧
    (Node.hash E.H (Push E block n).2).1 = (Node.hash E.H (Push E' block n').2).1 := by
  refine agree_nodes hH hn hn' hsame block ?_
  intro body hb tx htx c v _ t ht
  have h63 : t.value ≤ 9223372036854775808 := by have := hv body hb tx htx; rw [ht] at this; exact this
  unfold amountUnlocked
  split
  · rfl
  · split
    · rfl
    · dsimp only
      split
      · rfl
      · exact ⟨fun _ => UInt64.le_trans h63 (hc' _), fun _ => UInt64.le_trans h63 (hc _)⟩

/-- C117, what holds whatever the platform does: the same, for blocks at heights where no contract that spends in the block has
passed so many steps that the unlocked amount leaves the range of the conversion. In particular for all blocks without
transactions from vesting contracts. -/
theorem C117_small_partial {E E' : Env} (hH : E.H = E'.H) {n n' : Node} (hn : Reach E n) (hn' : Reach E' n')
    (hsame : ∀ a, (Node.getAccount a n).1 = (Node.getAccount a n').1) (block : Block)
    (hv : ∀ body, block.body = some body → ∀ tx ∈ body.txs, ∀ c, accountOf n (tx.getSender E.H).1 = .vesting c →
      (block.height.toNat - c.vestingStart.toNat) * c.vestingStepAmount.toNat < 2 ^ 63 * c.vestingStepBlocks.toNat ∨
        c.vestingStepBlocks = 0 ∨ c.vestingStepAmount = 0) :
    OutLike (Push E block n).1 (Push E' block n').1 ∧
    (∀ a, (Node.getAccount a (Push E block n).2).1 = (Node.getAccount a (Push E' block n').2).1) ∧
    (Node.hash E.H (Push E block n).2).1 = (Node.hash E.H (Push E' block n').2).1 := by
  refine agree_nodes hH hn hn' hsame block ?_
  intro body hb tx htx c v hcv t ht
  have hlt := hv body hb tx htx c hcv
  by_cases hs : block.height ≤ c.vestingStart
  · unfold amountUnlocked; rw [if_pos hs, if_pos hs]
  · by_cases hz : c.vestingStepBlocks = 0 ∨ c.vestingStepAmount = 0
    · unfold amountUnlocked; rw [if_neg hs, if_pos hz, if_neg hs, if_pos hz]
    · have hlt := hlt.resolve_right hz
      push Not at hz
      have hs' := UInt32.not_le.mp hs
      have := block.height.toNat_lt
      have hr := rawUnlocked_lt { c with value := v } (d := block.height.toNat - c.vestingStart.toNat) (by omega) hlt
      rw [amountUnlocked_eq (c := { c with value := v }) hs' hz.1 hz.2,
        amountUnlocked_eq (c := { c with value := v }) hs' hz.1 hz.2, if_pos hr, if_pos hr]

/-- C117, violated: a block can split the network. Let a vesting contract have passed so many steps that the amount exceeds
`2^64`, and let one platform turn that into `2^63` (amd64) and another into the largest number (arm64). A transaction of its
owner over more than `2^63` is then refused by the one and executed by the other. -/
theorem C117_split_violated {E E' : Env} (hH : E.H = E'.H) {n n' : Node} (hn : Reach E n) (hn' : Reach E' n')
    (hsame : ∀ a, (Node.getAccount a n).1 = (Node.getAccount a n').1) (a b c : Addr) (va : VestingAccount) (v : UInt64)
    (height : UInt32) (h0 : height ≠ 0) (ha : accountOf n a = .vesting va) (hb : accountOf n b = .basic ⟨0⟩)
    (hc : accountOf n c = .basic ⟨0⟩) (hab : a ≠ b) (hac : a ≠ c) (hbc : b ≠ c) (hash : Hash32) (proof : Bytes)
    (hp : ProofOf E.H proof va.owner) (hv : 9223372036854775808 < v) (hva : va.value < 9223372036854775808)
    (hE : amountUnlocked E va height = 9223372036854775808) (hE' : amountUnlocked E' va height = 18446744073709551615) :
    let tx : Tx := .extended ⟨[], a, 1, b, 0, v, 0, 1, 1, 0, proof⟩
    let block : Block := ⟨height, hash, some ⟨c, [tx], []⟩⟩
    (Push E block n).1 = .err (.overspend (9223372036854775808) v) ∧ (Push E' block n').1 = .ok () ∧
    accountOf (Push E' block n').2 b = .basic ⟨v⟩ ∧ accountOf (Push E block n).2 b = .basic ⟨0⟩ := by
  intro tx block
  have hm : accountOf n = accountOf n' := by
    funext a; unfold accountOf; rw [hsame]
  have h2 := C57_vesting_violated hn' a b c va v height h0 (hm ▸ ha) (hm ▸ hb) (hm ▸ hc) hab hac hbc hash proof (hH ▸ hp)
    (UInt64.lt_trans hva hv) (by rw [hE', UInt64.le_iff_toNat_le]; have := v.toNat_lt; show v.toNat ≤ 18446744073709551615; omega)
  have h1 : push E mapLedger block (accountOf n) = (.err (.overspend (9223372036854775808) v), accountOf n) := by
    show (pushSenders E mapLedger height ⟨c, [tx], []⟩ >>= _) (accountOf n) = _
    have e : pushSenders E mapLedger height ⟨c, [tx], []⟩ (accountOf n) =
        (.err (.overspend (9223372036854775808) v), accountOf n) := by
      show (pushTx mapLedger a 1 tx height (applyOutgoing E) >>= fun _ => forTxs [] _) (accountOf n) = _
      have hx : applyOutgoing E (.vesting va) tx height = .err (.overspend (9223372036854775808) v) := by
        show vestingOutgoing E va tx height = _
        simp only [vestingOutgoing, asExtendedPtr, tx, Out.bind_ok]
        rw [hE, if_pos hv]
      rw [M.bind_eq, pushTx_map, ha, if_neg (by rintro ⟨_, h⟩; exact h rfl), hx]
    rw [M.bind_eq, e]
  have q := hn.push_eq block
  rw [h1] at q
  exact ⟨q.1, h2.1, h2.2.2.1, by rw [q.2]; exact hb⟩

/-- The hypotheses of `C117_split_violated` are met: a contract that releases `2^64 - 1` per block, four blocks after its start,
on an amd64 and an arm64 node. -/
example (H : Bytes → Hash32) (pick : (l : List Addr) → l ≠ [] → { a : Addr // a ∈ l }) (key : BArr 32) (sig : BArr 64) (a b c : Addr)
    (hab : a ≠ b) (hac : a ≠ c) : ∃ n va proof, Reach ⟨H, pick, fun _ => 9223372036854775808⟩ n ∧
      Reach ⟨H, pick, fun _ => 18446744073709551615⟩ n ∧ accountOf n a = .vesting va ∧ accountOf n b = .basic ⟨0⟩ ∧
      accountOf n c = .basic ⟨0⟩ ∧ ProofOf H proof va.owner ∧ va.value < 9223372036854775808 ∧
      amountUnlocked ⟨H, pick, fun _ => 9223372036854775808⟩ va 4 = 9223372036854775808 ∧
      amountUnlocked ⟨H, pick, fun _ => 18446744073709551615⟩ va 4 = 18446744073709551615 := by
  have hu : ∀ E : Env, ∃ x, amountUnlocked E ⟨1, publicKeyToAddress H key, 0, 1, 18446744073709551615, 1⟩ 4 = E.conv x :=
    fun E => amountUnlocked_beyond E _ _ (by show (0 : UInt32) < 4; decide) (by show (1 : UInt32) ≠ 0; decide)
      (by show 2 ^ 65 * 1 ≤ (4 - 0) * 18446744073709551615; decide)
  let E : Env := ⟨H, pick, fun _ => 9223372036854775808⟩
  refine ⟨(Node.putAccount H a (some (.vesting ⟨1, publicKeyToAddress H key, 0, 1, 18446744073709551615, 1⟩)) newNode).2, _,
    key.val ++ 0 :: sig.val, .put (E := ⟨H, pick, fun _ => 9223372036854775808⟩) _ _ .new,
    .put (E := ⟨H, pick, fun _ => 18446744073709551615⟩) _ _ .new,
    by rw [accountOf_put (E := E) .new, AMap.set_same], ?_, ?_, ?_, ?_, ?_, ?_⟩
  · rw [accountOf_put (E := E) .new, AMap.set_ne _ _ (Ne.symm hab), accountOf_new]
  · rw [accountOf_put (E := E) .new, AMap.set_ne _ _ (Ne.symm hac), accountOf_new]
  · exact ⟨⟨key, ⟨⟨0, []⟩, []⟩, sig⟩, ⟨by show 0 = BitSet.size 0; decide, rfl⟩, by simp [proofBytes], C52_empty H _ rfl⟩
  · show (1 : UInt64) < 9223372036854775808; decide
  · obtain ⟨x, hx⟩ := hu ⟨H, pick, fun _ => 9223372036854775808⟩; exact hx
  · obtain ⟨x, hx⟩ := hu ⟨H, pick, fun _ => 18446744073709551615⟩; exact hx

/-- The hypotheses of `C117_agree_partial` and `C117_small_partial` on blocks hold for an empty block, and those on platforms for
amd64 and arm64. -/
example : (∀ _ : ℚ, (9223372036854775808 : UInt64) ≤ 9223372036854775808) ∧ ∀ _ : ℚ, (9223372036854775808 : UInt64) ≤ 18446744073709551615 :=
  ⟨fun _ => by decide, fun _ => by decide⟩

end Nimiq.Accounts
