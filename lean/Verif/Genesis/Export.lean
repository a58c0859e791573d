import Verif.Genesis.Replay
/-!
# C70: exported archives; a complete run
-/
namespace Nimiq.Genesis
open Beserial Wire Accounts Spec

/-! ## Ranges -/

theorem pyRange_nil {a b : Int} (h : b ≤ a) : pyRange a b = [] := by
  have : (b - a).toNat = 0 := by omega
  simp [pyRange, this]

theorem pyRange_ne_nil {a b : Int} (h : a < b) : pyRange a b ≠ [] := by
  have : (b - a).toNat ≠ 0 := by omega
  simp only [pyRange, ne_eq, List.map_eq_nil_iff, List.range_eq_nil]
  exact this

theorem pyRange_append {a b c : Int} (h1 : a ≤ b) (h2 : b ≤ c) : pyRange a b ++ pyRange b c = pyRange a c := by
  have e : (c - a).toNat = (b - a).toNat + (c - b).toNat := by omega
  unfold pyRange
  rw [e, List.range_add, List.map_append, List.map_map]
  congr 1
  apply List.map_congr_left
  intro i _
  simp only [Function.comp]
  omega

theorem pyRange_length (a b : Int) : (pyRange a b).length = (b - a).toNat := by simp [pyRange]

theorem mem_pyRange {a b x : Int} : x ∈ pyRange a b ↔ a ≤ x ∧ x < b := by
  unfold pyRange
  rw [List.mem_map]
  constructor
  · rintro ⟨i, hi, rfl⟩
    rw [List.mem_range] at hi
    omega
  · rintro ⟨h1, h2⟩
    exact ⟨(x - a).toNat, List.mem_range.mpr (by omega), by omega⟩

/-- The range without its first element. -/
theorem pyRange_tail {a b : Int} : (pyRange a b).drop 1 = pyRange (a + 1) b := by
  by_cases h : a < b
  · have h1 := pyRange_append (a := a) (b := a + 1) (c := b) (by omega) (by omega)
    have h2 : pyRange a (a + 1) = [a] := by
      simp [pyRange]
    rw [← h1, h2]; rfl
  · rw [pyRange_nil (by omega), pyRange_nil (by omega)]; rfl

/-! ## Servers -/

/-- The server answers every batch with the right blocks, in some order. -/
def Honest (server : Server) (blk : Int → Bytes) : Prop :=
  ∀ req, ∃ resp, server req = some resp ∧ resp.Perm (req.map fun n => (n, blk n))

/-- The server answers every batch with the right blocks in the order of the request. -/
def InOrder (server : Server) (blk : Int → Bytes) : Prop := ∀ req, server req = some (req.map fun n => (n, blk n))

/-- C70, what is exported: with a positive batch size and a server that answers in order, the archive holds the blocks
`from, …, to-1` in this order. -/
theorem C70_export_ordered {server : Server} {blk : Int → Bytes} (hs : InOrder server blk) (batch last start : Int)
    (hb : 0 < batch) :
    exportLoop server batch last start = some ((pyRange start last).map fun n => (n, blk n)) := by
  generalize hk : (last - start).toNat = k
  induction k using Nat.strongRecOn generalizing start with
  | ind k ih =>
    rw [exportLoop]
    by_cases h : start < last
    · have hne : pyRange start (min (start + batch) last) ≠ [] := pyRange_ne_nil (by omega)
      have hreq := hs (pyRange start (min (start + batch) last))
      simp only [hne, dite_false, hreq]
      rw [ih (last - min (start + batch) last).toNat (by omega) _ rfl]
      simp only [Option.map_some, ← List.map_append]
      rw [pyRange_append (by omega) (by omega)]
    · rw [pyRange_nil (by omega), pyRange_nil (by omega)]
      simp

/-- A server that answers in order, and one that answers with the right blocks in the wrong order. -/
example (blk : Int → Bytes) : InOrder (fun req => some (req.map fun n => (n, blk n))) blk ∧
    Honest (fun req => some (req.map fun n => (n, blk n)).reverse) blk :=
  ⟨fun _ => rfl, fun _ => ⟨_, rfl, List.reverse_perm _⟩⟩

example (blk : Int → Bytes) : exportLoop (fun req => some (req.map fun n => (n, blk n))) 10 25 2 =
    some ((pyRange 2 25).map fun n => (n, blk n)) := C70_export_ordered (fun _ => rfl) 10 25 2 (by decide)

/-- C70, what is exported, whatever the order of the answers: every block of `from, …, to-1` once, and nothing else. -/
theorem C70_export_complete {server : Server} {blk : Int → Bytes} (hs : Honest server blk) (batch last start : Int)
    (hb : 0 < batch) :
    ∃ entries, exportLoop server batch last start = some entries ∧
      entries.Perm ((pyRange start last).map fun n => (n, blk n)) := by
  generalize hk : (last - start).toNat = k
  induction k using Nat.strongRecOn generalizing start with
  | ind k ih =>
    rw [exportLoop]
    by_cases h : start < last
    · have hne : pyRange start (min (start + batch) last) ≠ [] := pyRange_ne_nil (by omega)
      obtain ⟨resp, h1, h2⟩ := hs (pyRange start (min (start + batch) last))
      obtain ⟨rest, h3, h4⟩ := ih (last - min (start + batch) last).toNat (by omega) _ rfl
      simp only [hne, dite_false, h1, h3, Option.map_some]
      refine ⟨_, rfl, ?_⟩
      rw [← pyRange_append (a := start) (b := min (start + batch) last) (c := last) (by omega) (by omega), List.map_append]
      exact h2.append h4
    · rw [pyRange_nil (by omega), pyRange_nil (by omega)]
      exact ⟨[], by simp, by simp⟩

/-- C70 is violated at the end of the range: the block given as "Last block to export" is not in the archive. -/
theorem C70_last_violated {server : Server} {blk : Int → Bytes} (hs : Honest server blk) (batch last start : Int)
    (hb : 0 < batch) : ∃ entries, exportLoop server batch last start = some entries ∧ ∀ e ∈ entries, e.1 ≠ last := by
  obtain ⟨entries, h1, h2⟩ := C70_export_complete hs batch last start hb
  refine ⟨entries, h1, fun e he => ?_⟩
  obtain ⟨x, hx, rfl⟩ := List.mem_map.mp (h2.mem_iff.mp he)
  have := (mem_pyRange.mp hx).2
  omega

/-- C70 is violated in the order: a server that answers a batch in reverse (as JSON-RPC allows) makes an archive in which
block 3 comes before block 2, although the script means to sort. -/
theorem C70_order_violated (blk : Int → Bytes) :
    Honest (fun req => some (req.map fun n => (n, blk n)).reverse) blk ∧
    exportLoop (fun req => some (req.map fun n => (n, blk n)).reverse) 100 4 1 =
      some [(3, blk 3), (2, blk 2), (1, blk 1)] := by
  refine ⟨fun req => ⟨_, rfl, List.reverse_perm _⟩, ?_⟩
  have h1 : pyRange 1 (min (1 + 100) 4) = [1, 2, 3] := by decide
  have h2 : pyRange (min (1 + 100) 4) (min (min (1 + 100) 4 + 100) 4) = [] := by decide
  rw [exportLoop]
  simp only [h1]
  rw [exportLoop]
  simp only [h2]
  simp

/-! ## Replaying an export -/

/-- What of an in-order export the replay looks at: the blocks strictly between `from` and `to`. -/
theorem archive_drop (blk : Int → Bytes) (first last : Int) :
    (archiveOf ((pyRange first last).map fun n => (n, blk n))).entries.drop 1 =
      (pyRange (first + 1) last).map fun n => some (blk n) := by
  simp only [archiveOf, List.map_map, ← List.map_drop, pyRange_tail]
  rfl

/-- C70 (partial: the server answers in order). Replaying the archive of an export `--from first --to last` ends normally
iff the blocks `first+1, …, last-1` decode, and push one after the other with the state hashes of their headers. -/
theorem C70_replay_partial (E : Env) (config : Option Config) (blockBuf accountsBuf : Option Bytes) {server : Server}
    {blk : Int → Bytes} (hs : InOrder server blk) (batch first last : Int) (hb : 0 < batch) (b t : Nat) (n' : Node) :
    ∃ entries, exportLoop server batch last first = some entries ∧
      (gimiq E config blockBuf accountsBuf (archiveOf entries) newNode = (.ok (b, t), n') ↔
        ∃ p genesis n0 blocks, openProfile config blockBuf accountsBuf = .ok p ∧ Block.ofVal p.block = some genesis ∧
          initAccounts E p.accounts genesis newNode = (.ok (), n0) ∧
          List.Forall₂ (fun k block => Holds (some (blk k)) block) (pyRange (first + 1) last) blocks ∧
          Replayed E n0 blocks n' ∧ b = blocks.length ∧ t = (blocks.map txCount).sum) := by
  refine ⟨_, C70_export_ordered hs batch last first hb, ?_⟩
  rw [C69_iff, archive_drop]
  simp only [List.forall₂_map_left_iff]
  constructor
  · rintro ⟨p, g, n0, blocks, h1, h2, h3, _, h⟩; exact ⟨p, g, n0, blocks, h1, h2, h3, h⟩
  · rintro ⟨p, g, n0, blocks, h1, h2, h3, h⟩; exact ⟨p, g, n0, blocks, h1, h2, h3, rfl, h⟩

/-- C70 is violated: the first and the last block of the range play no role. Two block chains that differ in blocks `first`
and `last` (and outside the range) only are replayed alike, whatever those blocks are. -/
theorem C70_ends_ignored_violated (E : Env) (config : Option Config) (blockBuf accountsBuf : Option Bytes)
    {server server' : Server} {blk blk' : Int → Bytes} (hs : InOrder server blk) (hs' : InOrder server' blk')
    (batch first last : Int) (hb : 0 < batch) (hsame : ∀ k, first < k → k < last → blk k = blk' k) :
    ∃ es es', exportLoop server batch last first = some es ∧ exportLoop server' batch last first = some es' ∧
      gimiq E config blockBuf accountsBuf (archiveOf es) newNode = gimiq E config blockBuf accountsBuf (archiveOf es') newNode := by
  refine ⟨_, _, C70_export_ordered hs batch last first hb, C70_export_ordered hs' batch last first hb, ?_⟩
  unfold gimiq
  rw [archive_drop, archive_drop]
  have : ((pyRange (first + 1) last).map fun n => some (blk n)) = (pyRange (first + 1) last).map fun n => some (blk' n) := by
    apply List.map_congr_left
    intro k hk
    have := mem_pyRange.mp hk
    rw [hsame k (by omega) (by omega)]
  rw [this]
  rfl

/-! ## A complete run -/

/-- A block with a body, a miner and nothing else. -/
def plainBlock (height : UInt32) (hash : Hash32) (miner : Addr) (txs : List (Option Tx)) : blockTy.Val :=
  ((0, BArr.zero 32, BArr.zero 32, BArr.zero 32, hash, 0, height, 0, 0, ()), interlink.zero,
    some (miner, [], txs, [], ()), ())

theorem plainBlock_ofVal (height : UInt32) (hash : Hash32) (miner : Addr) :
    Block.ofVal (plainBlock height hash miner []) = some ⟨height, hash, some ⟨miner, [], []⟩⟩ := rfl

/-- There are bytes that decode to such a block. -/
theorem plainBlock_bytes (height : UInt32) (hash : Hash32) (miner : Addr) :
    ∃ bs, Holds (some bs) ⟨height, hash, some ⟨miner, [], []⟩⟩ := by
  have hok : (interlink.zero : Interlink).Ok := by
    constructor <;> simp [interlink, BitSet.list, allBits]
  have henc : enc (.ptr bodyTy) { optional := true } (some ((miner, [], [], [], ()) : bodyTy.Val)) =
      some (1 :: (miner.val ++ [0, 0, 0, 0, 0])) := by
    have h8 : Beserial.Spec.len { lenTag := some .u8 } 0 = some [0] := by decide
    have h16 : Beserial.Spec.len { lenTag := some .u16 } 0 = some [0, 0] := by decide
    simp [enc, bodyTy, encFields, all, h8, h16, isCustom]
  obtain ⟨bs, il', h1, h2, h3, h4, h5⟩ := C45_block_partial
    (0, BArr.zero 32, BArr.zero 32, BArr.zero 32, hash, 0, height, 0, 0, ()) interlink.zero hok _ _ henc blockTy.zero []
  rw [List.append_nil] at h2
  refine ⟨bs, bs, ((0, BArr.zero 32, BArr.zero 32, BArr.zero 32, hash, 0, height, 0, 0, ()), il',
    some (miner, [], [], [], ()), ()), rfl, ?_, ?_⟩
  · unfold UnmarshalFull
    rw [h2]
    simp only [List.length_nil, Nat.sub_zero, gt_iff_lt, Nat.lt_irrefl, if_false]
  · rfl

/-- The hypotheses of C68-C70 and C78 can be met: for every hash function there are a profile and an archive of three
entries such that the program replays two blocks. -/
theorem complete_run (E : Env) (conf : Config) (miner : Addr) :
    ∃ blockBuf accountsBuf b2 b3 n', gimiq E (some conf) (some blockBuf) (some accountsBuf)
      ⟨[none, some b2, some b3], true⟩ newNode = (.ok (2, 0), n') := by
  -- any block without transactions pushes on accounts whose miner is basic
  have step : ∀ (n : Node) (height : UInt32), height ≠ 0 → Reach E n → (accountOf n miner).type = 0 →
      ∃ hash n1, Push E ⟨height, hash, some ⟨miner, [], []⟩⟩ n = (.ok (), n1) ∧ (Node.hash E.H n1).1 = .ok hash ∧
        Reach E n1 ∧ (accountOf n1 miner).type = 0 := by
    intro n height h0 hn hty
    have key : ∀ hash, ∃ n1, Push E ⟨height, hash, some ⟨miner, [], []⟩⟩ n = (.ok (), n1) ∧ Reach E n1 ∧
        accountOf n1 = afterInherents height ⟨miner, [], []⟩ (accountOf n) := by
      intro hash
      have e1 : afterRecipients [] (afterSenders E.H [] (accountOf n)) = accountOf n := by
        funext a; simp [afterRecipients, afterSenders, sentBy, receivedBy]
      have hp := (plain_push_iff (E := E) (block := ⟨height, hash, some ⟨miner, [], []⟩⟩) (body := ⟨miner, [], []⟩)
        (m := accountOf n) (m' := afterInherents height ⟨miner, [], []⟩ (accountOf n)) rfl (by simp) (by simp)).mpr
        ⟨h0, by simp, by simp [sentBy], by simp, rfl, hty, by
          show _ = afterInherents _ _ (afterRecipients [] (afterSenders E.H [] (accountOf n))); rw [e1]⟩
      have hq := hn.push_eq ⟨height, hash, some ⟨miner, [], []⟩⟩
      rw [hp] at hq
      exact ⟨_, Prod.ext hq.1 rfl, .push _ hn, hq.2⟩
    let hash := Tree.Spec.rootHash E.H fun a => entryOf (afterInherents height ⟨miner, [], []⟩ (accountOf n) a)
    obtain ⟨n1, k1, k2, k3⟩ := key hash
    refine ⟨hash, n1, k1, by rw [k2.acc.hash, k3], k2, ?_⟩
    rw [k3]
    unfold afterInherents
    rw [AMap.set_same, type_withBalance]
    exact hty
  obtain ⟨h1, n1, p1, q1, r1, t1⟩ := step newNode 1 (by decide) .new (by rw [accountOf_new]; rfl)
  obtain ⟨h2, n2, p2, q2, r2, t2⟩ := step n1 2 (by decide) r1 t1
  obtain ⟨h3, n3, p3, q3, r3, t3⟩ := step n2 3 (by decide) r2 t2
  obtain ⟨b1, buf1, v1, e1, d1, o1⟩ := plainBlock_bytes 1 h1 miner
  obtain ⟨b2, hb2⟩ := plainBlock_bytes 2 h2 miner
  obtain ⟨b3, hb3⟩ := plainBlock_bytes 3 h3 miner
  cases e1
  refine ⟨b1, accountFile [], b2, b3, n3, ?_⟩
  rw [C69_iff]
  refine ⟨⟨conf, v1, []⟩, ⟨1, h1, some ⟨miner, [], []⟩⟩, n1,
    [⟨2, h2, some ⟨miner, [], []⟩⟩, ⟨3, h3, some ⟨miner, [], []⟩⟩], ?_, o1, ?_, rfl, ?_, ?_, rfl, rfl⟩
  · exact (C78_open_iff _ _ _ _).mpr ⟨rfl, ⟨b1, rfl, d1⟩, [], by simp, rfl, rfl⟩
  · show (putAll E.H [] >>= fun _ => _) newNode = _
    rw [M.bind_eq]
    show (Push E ⟨1, h1, some ⟨miner, [], []⟩⟩ >>= _) newNode = _
    rw [M.bind_eq, p1]
    simp only []
    rw [M.bind_eq]
    rw [r1.acc.hash] at q1 ⊢
    simp only []
    rw [if_neg (by rw [Out.ok.inj q1]; simp)]
    rfl
  · exact .cons hb2 (.cons hb3 .nil)
  · exact .cons p2 q2 (.cons p3 q3 .nil)

end Nimiq.Genesis
