import Verif.Genesis.Linkage
import Verif.Genesis.Export
/-!
# C89, C90: what a replay accepts
-/
namespace Nimiq.Genesis
open Beserial Beserial.Spec Wire Accounts Spec

variable {E : Env}

/-- A block value with an encodable body (if any) and an interlink as a block has it. -/
def Archivable (v : blockTy.Val) : Prop :=
  v.2.1.Ok ∧ ∃ bs, Beserial.Spec.enc (.ptr bodyTy) { optional := true } v.2.2.1 = some bs

/-- C90. Marshal writes an archivable block to bytes that a replay reads back as the same height, accounts hash and body. -/
theorem C90_archived (v : blockTy.Val) (h : Archivable v) (block : Block) (hb : Block.ofVal v = some block) :
    ∃ bs, Marshal [] blockTy v = .ok bs ∧ Holds (some bs) block := by
  obtain ⟨hdr, il, body, ⟨⟩⟩ := v
  obtain ⟨hil, bodyBs, hbody⟩ := h
  obtain ⟨bs, il', h1, h2, _⟩ := C45_block_partial hdr il hil body bodyBs hbody blockTy.zero []
  rw [List.append_nil] at h2
  refine ⟨bs, h1, bs, (hdr, il', body, ()), rfl, ?_, ?_⟩
  · unfold UnmarshalFull
    rw [h2]
    simp only [List.length_nil, Nat.sub_zero, gt_iff_lt, Nat.lt_irrefl, if_false]
  · exact hb

/-- C90. Every sequence of blocks that pushes one after the other on the genesis state, each with the right accounts hash,
can be written to an archive, in that order and behind any first entry, and the program replays it completely: it reports
all the blocks and their transactions and ends in the state the pushes lead to. -/
theorem C90_replayed (conf : Config) (blockBuf accountsBuf : Bytes) (p : Profile) (genesis : Block)
    (n0 n' : Node) (hopen : openProfile (some conf) (some blockBuf) (some accountsBuf) = .ok p)
    (hg : Block.ofVal p.block = some genesis) (hinit : initAccounts E p.accounts genesis newNode = (.ok (), n0))
    (vs : List blockTy.Val) (hvs : ∀ v ∈ vs, Archivable v) (blocks : List Block)
    (hb : List.Forall₂ (fun v b => Block.ofVal v = some b) vs blocks) (hr : Replayed E n0 blocks n') (first : Option Bytes) :
    ∃ bufs, List.Forall₂ (fun v buf => Marshal [] blockTy v = .ok buf) vs bufs ∧
      gimiq E (some conf) (some blockBuf) (some accountsBuf) ⟨first :: bufs.map some, true⟩ newNode =
        (.ok (blocks.length, (blocks.map txCount).sum), n') := by
  have key : ∃ bufs : List Bytes, List.Forall₂ (fun v buf => Marshal [] blockTy v = .ok buf) vs bufs ∧
      List.Forall₂ Holds (bufs.map some) blocks := by
    clear hr
    induction hb with
    | nil => exact ⟨[], .nil, .nil⟩
    | cons h _ ih =>
      obtain ⟨bs, k1, k2⟩ := C90_archived _ (hvs _ (by simp)) _ h
      obtain ⟨bufs, k3, k4⟩ := ih fun v hv => hvs v (by simp [hv])
      exact ⟨bs :: bufs, .cons k1 k3, .cons k2 k4⟩
  obtain ⟨bufs, h1, h2⟩ := key
  exact ⟨bufs, h1, (C69_iff ..).mpr ⟨p, genesis, n0, blocks, hopen, hg, hinit, rfl, h2, hr, rfl, rfl⟩⟩

/-- Any block without transactions pushes on accounts whose miner is basic. -/
theorem empty_step (E : Env) (miner : Addr) (n : Node) (height : UInt32) (h0 : height ≠ 0) (hn : Reach E n)
    (hty : (accountOf n miner).type = 0) :
    ∃ hash n1, Push E ⟨height, hash, some ⟨miner, [], []⟩⟩ n = (.ok (), n1) ∧ (Node.hash E.H n1).1 = .ok hash ∧
      Reach E n1 ∧ (accountOf n1 miner).type = 0 := by
  have key : ∀ hash, ∃ n1, Push E ⟨height, hash, some ⟨miner, [], []⟩⟩ n = (.ok (), n1) ∧ Reach E n1 ∧
      accountOf n1 = afterInherents height ⟨miner, [], []⟩ (accountOf n) := by
    intro hash
    have e1 : afterRecipients [] (afterSenders E.H [] (accountOf n)) = accountOf n := by
      funext a; simp [afterRecipients, afterSenders, sentBy, receivedBy]
    have hp := (plain_push_iff (E := E) (block := ⟨height, hash, some ⟨miner, [], []⟩⟩) (body := ⟨miner, [], []⟩)
      (m := accountOf n) (m' := afterInherents height ⟨miner, [], []⟩ (accountOf n)) rfl (by simp) (by simp)).mpr
      ⟨h0, by simp, by simp [sentBy], by simp, rfl, hty, by
        show _ = afterInherents _ _ (afterRecipients [] (afterSenders E.H [] (accountOf n))); rw [e1]⟩
    have hq := hn.push_eq ⟨height, hash, some ⟨miner, [], []⟩⟩
    rw [hp] at hq
    exact ⟨_, Prod.ext hq.1 rfl, .push _ hn, hq.2⟩
  let hash := Tree.Spec.rootHash E.H fun a => entryOf (afterInherents height ⟨miner, [], []⟩ (accountOf n) a)
  obtain ⟨n1, k1, k2, k3⟩ := key hash
  refine ⟨hash, n1, k1, by rw [k2.acc.hash, k3], k2, ?_⟩
  rw [k3]
  unfold afterInherents
  rw [AMap.set_same, type_withBalance]
  exact hty

theorem plainBlock_archivable (height : UInt32) (hash : Hash32) (miner : Addr) : Archivable (plainBlock height hash miner []) := by
  refine ⟨by constructor <;> simp [plainBlock, interlink, BitSet.list, allBits], 1 :: (miner.val ++ [0, 0, 0, 0, 0]), ?_⟩
  have h8 : Beserial.Spec.len { lenTag := some .u8 } 0 = some [0] := by decide
  have h16 : Beserial.Spec.len { lenTag := some .u16 } 0 = some [0, 0] := by decide
  show enc (.ptr bodyTy) { optional := true } (some ((miner, [], [], [], ()) : bodyTy.Val)) = _
  simp [enc, bodyTy, encFields, all, h8, h16, isCustom]

example (height : UInt32) (hash : Hash32) (miner : Addr) : ∃ bs, Marshal [] blockTy (plainBlock height hash miner []) = .ok bs ∧
    Holds (some bs) ⟨height, hash, some ⟨miner, [], []⟩⟩ :=
  C90_archived _ (plainBlock_archivable height hash miner) _ (plainBlock_ofVal height hash miner)

/-- C89 is false of the code: the heights of the replayed blocks need not follow each other. For every sequence of nonzero
heights, in any order and with any repetitions, there is an archive of blocks with exactly these heights that is replayed. -/
theorem C89_heights_violated (E : Env) (conf : Config) (miner : Addr) (heights : List UInt32) (h0 : ∀ h ∈ heights, h ≠ 0) :
    ∃ (blockBuf accountsBuf : Bytes) (n0 : Node) (blocks : List Block) (bufs : List Bytes) (n' : Node), Replayed E n0 blocks n' ∧ blocks.map (·.height) = heights ∧
      List.Forall₂ Holds (bufs.map some) blocks ∧
      gimiq E (some conf) (some blockBuf) (some accountsBuf) ⟨none :: bufs.map some, true⟩ newNode =
        (.ok (heights.length, 0), n') := by
  obtain ⟨h1, n1, p1, q1, r1, t1⟩ := empty_step E miner newNode 1 (by decide) .new (by rw [accountOf_new]; rfl)
  obtain ⟨b1, m1, buf1, v1, e1, d1, o1⟩ := C90_archived _ (plainBlock_archivable 1 h1 miner) _ (plainBlock_ofVal 1 h1 miner)
  cases e1
  have run : ∀ (heights : List UInt32), (∀ h ∈ heights, h ≠ 0) → ∀ n, Reach E n → (accountOf n miner).type = 0 →
      ∃ (blocks : List Block) (bufs : List Bytes) (n' : Node), Replayed E n blocks n' ∧ blocks.map (·.height) = heights ∧ (blocks.map txCount).sum = 0 ∧
        List.Forall₂ Holds (bufs.map some) blocks := by
    intro heights
    induction heights with
    | nil => intro _ n _ _; exact ⟨[], [], n, .nil, rfl, rfl, .nil⟩
    | cons h heights ih =>
      intro h0 n hn ht
      obtain ⟨hash, n1, p, q, r, t⟩ := empty_step E miner n h (h0 _ (by simp)) hn ht
      obtain ⟨blocks, bufs, n', k1, k2, k3, k4⟩ := ih (fun x hx => h0 x (by simp [hx])) n1 r t
      obtain ⟨bs, _, hbs⟩ := C90_archived _ (plainBlock_archivable h hash miner) _ (plainBlock_ofVal h hash miner)
      exact ⟨_ :: blocks, bs :: bufs, n', .cons p q k1, by simp [k2], by simp [k3, txCount], .cons hbs k4⟩
  obtain ⟨blocks, bufs, n', k1, k2, k3, k4⟩ := run heights h0 n1 r1 t1
  refine ⟨b1, accountFile [], n1, blocks, bufs, n', k1, k2, k4, (C69_iff ..).mpr
    ⟨⟨conf, v1, []⟩, _, n1, blocks, ?_, o1, ?_, rfl, k4, k1, by rw [← k2]; simp, k3.symm⟩⟩
  · exact (C78_open_iff _ _ _ _).mpr ⟨rfl, ⟨b1, rfl, d1⟩, [], by simp, rfl, rfl⟩
  · show (putAll E.H [] >>= fun _ => _) newNode = _
    rw [M.bind_eq]
    show (Push E ⟨1, h1, some ⟨miner, [], []⟩⟩ >>= _) newNode = _
    rw [M.bind_eq, p1]
    simp only []
    rw [M.bind_eq]
    rw [r1.acc.hash] at q1 ⊢
    simp only []
    rw [if_neg (by rw [Out.ok.inj q1]; simp)]
    rfl

/-- The hypotheses of `C89_links_violated` are met with a replay that ends normally: a block's bytes with the 98 first bytes
replaced. -/
example (buf : Bytes) (h : 146 ≤ buf.length) (a : Bytes) (ha : a.length = 98) : SameButLinks buf (a ++ buf.drop 98) :=
  ⟨buf.take 98, a, (buf.drop 98).take 32, (buf.drop 130).take 4, (buf.drop 130).take 4, (buf.drop 134).take 4,
    (buf.drop 138).take 8, (buf.drop 138).take 8, buf.drop 146, by simp; omega, ha, by simp; omega, by simp; omega,
    by simp; omega, by simp; omega, by simp; omega, by simp; omega, by
      have e : ∀ i j, (buf.drop i).take j ++ buf.drop (i + j) = buf.drop i := fun i j => by
        rw [← List.drop_drop, List.take_append_drop]
      simp only [List.append_assoc]
      rw [e 138 8, e 134 4, e 130 4, e 98 32, List.take_append_drop], by
      have e : ∀ i j, (buf.drop i).take j ++ buf.drop (i + j) = buf.drop i := fun i j => by
        rw [← List.drop_drop, List.take_append_drop]
      simp only [List.append_assoc]
      rw [e 138 8, e 134 4, e 130 4, e 98 32]⟩

end Nimiq.Genesis
