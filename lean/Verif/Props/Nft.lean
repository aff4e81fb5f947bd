import Verif.Lemmas.Nft
import Verif.Props.ProxyCalls

/-!
# C56 - C60, C73: NFTs
-/

namespace Verif.Nft
open Verif.ProxyCalls

/-! ## C56 -/

/-- The bytes the owner signs to hand NFT `id` at nonce `n` to `dst` through `relayer` on the fiat market. -/
def transferBytes (relayer : Acct) (id : U256) (dst : Hash) (n : U64) : List UInt8 :=
  scaleBytes (ascii "authorization for transfer fiat nft operation") ++
    (relayer.toList ++ (leBytes 32 id.val ++ (dst.toList ++ leBytes 8 n.val)))

/-- C56: whenever the owner of an NFT changes, in any history, it is by a fiat transfer which the current owner signed for this NFT,
recipient and nonce while the NFT was listed for fiat sale, or by a processed Ethereum transfer event naming the NFT's current
nonce while it was listed for sale on Ethereum; and the listing is closed. -/
theorem C56_owner_changes_only_when_authorised (keccak : List UInt8 → Hash) (steps : List Step) (x : Step) (id : U256) (nft nft' : Nft)
    (h : (run keccak steps).nfts id = some nft) (h' : (step keccak (run keccak steps) x).nfts id = some nft')
    (hne : nft'.owner ≠ nft.owner) :
    (step keccak (run keccak steps) x).listed id = none ∧
    ((∃ cr p, x = .transferFiat cr p.signer p id nft'.owner ∧ p.signer = nft.owner ∧ (run keccak steps).listed id = some .fiat ∧
        verifySignature cr p (transferBytes p.relayer id nft'.owner nft.nonce) = true) ∨
     (x = .ethTransfer true id nft'.owner nft.nonce ∧ (run keccak steps).listed id = some .ethereum)) := by
  have v := run_view keccak steps x
  generalize run keccak steps = s at *
  generalize step keccak s x = s' at v h'
  have old : s'.nfts id = s.nfts id → False := fun e => by
    rw [e, h] at h'; cases h'; exact hne rfl
  cases v with
  | same => exact (old rfl).elim
  | single r o y t1 auth hid =>
    refine (old ?_).elim
    simp only [singleState, note]
    exact upd_ne _ _ (by intro e; rw [e] at h; rw [hid] at h; cases h)
  | batchMint batch i r o m auth k info hid =>
    refine (old ?_).elim
    simp only [batchMintState, note]
    exact upd_ne _ _ (by intro e; rw [e] at h; rw [hid] at h; cases h)
  | list i m n auth h0 =>
    by_cases hi : id = i
    · subst hi
      rw [h] at h0; cases h0
      simp only [listState, note, upd_same, Option.some.injEq] at h'
      subst h'
      exact (hne rfl).elim
    · exact (old (by simp only [listState, note]; exact upd_ne _ _ hi)).elim
  | unlist i m n auth h0 =>
    by_cases hi : id = i
    · subst hi
      rw [h] at h0; cases h0
      simp only [unlistState, note, upd_same, Option.some.injEq] at h'
      subst h'
      exact (hne rfl).elim
    · exact (old (by simp only [unlistState, note]; exact upd_ne _ _ hi)).elim
  | transfer i new m n auth h0 hl hs =>
    by_cases hi : id = i
    · subst hi
      rw [h] at h0; cases h0
      simp only [transferState, note, upd_same, Option.some.injEq] at h'
      subst h'
      refine ⟨by simp [transferState, note], ?_⟩
      rcases hs with ⟨known, rfl, rfl, rfl, -⟩ | ⟨cr, p, b, rfl, hp, rfl, -, hsg⟩
      · exact Or.inr ⟨rfl, hl⟩
      · refine Or.inl ⟨cr, p, rfl, hp, hl, ?_⟩
        have hb : payload (view s) (.transferFiatNft p id new) = some (transferBytes p.relayer id new nft.nonce) := by
          simp [payload, fields, view, h, transferBytes, context, encFields, Field.enc]
        rw [hsg.2.1] at hb
        rw [← Option.some.inj hb]
        exact hsg.2.2
    · exact (old (by simp only [transferState, note]; exact upd_ne _ _ hi)).elim
  | create => exact (old rfl).elim
  | listBatch => exact (old rfl).elim
  | endFiat => exact (old rfl).elim
  | endEth => exact (old rfl).elim

/-- C56: a transfer, even to the owner itself, closes the listing and raises the nonce. -/
theorem C56_transfer_closes_listing (keccak : List UInt8 → Hash) (steps : List Step) (x : Step) (id : U256) (a b : Acct) (m : Market)
    (n : U64) (auth : Auth)
    (h : (step keccak (run keccak steps) x).log = (run keccak steps).log ++ [⟨.transferred id a b m n, auth⟩]) :
    (run keccak steps).listed id = some m ∧ (step keccak (run keccak steps) x).listed id = none ∧
    ∃ nft nft', (run keccak steps).nfts id = some nft ∧ nft.owner = a ∧ nft.nonce = n ∧
      (step keccak (run keccak steps) x).nfts id = some nft' ∧ nft'.owner = b ∧ nft'.nonce = n + 1 := by
  have v := run_view keccak steps x
  generalize run keccak steps = s at *
  generalize step keccak s x = s' at v h
  cases v with
  | same => simp at h
  | transfer i new m' nft auth h0 hl hs =>
    simp only [transferState, note] at h
    have := List.append_cancel_left h
    simp only [List.cons.injEq, Obs.mk.injEq, What.transferred.injEq, and_true] at this
    obtain ⟨⟨rfl, rfl, rfl, rfl, rfl⟩, -⟩ := this
    exact ⟨hl, by simp [transferState, note], nft, _, h0, rfl, rfl, by simp [transferState, note]; rfl, rfl, rfl⟩
  | single => have := List.append_cancel_left h; simp at this
  | batchMint => have := List.append_cancel_left h; simp at this
  | list => have := List.append_cancel_left h; simp at this
  | unlist => have := List.append_cancel_left h; simp at this
  | create => have := List.append_cancel_left h; simp at this
  | listBatch => have := List.append_cancel_left h; simp at this
  | endFiat => have := List.append_cancel_left h; simp at this
  | endEth => have := List.append_cancel_left h; simp at this

/-- C56: only the owner lists an NFT (directly, or by a signature relayed by anyone), and only an existing one that is not listed. -/
theorem C56_only_owner_lists (keccak : List UInt8 → Hash) (steps : List Step) (x : Step) (id : U256) (m : Market)
    (h0 : (run keccak steps).listed id = none) (h1 : (step keccak (run keccak steps) x).listed id = some m) :
    ∃ nft, (run keccak steps).nfts id = some nft ∧
      (x = .list nft.owner id m ∨ ∃ cr p, x = .signedList cr p.signer p id m ∧ p.signer = nft.owner) := by
  have v := run_view keccak steps x
  generalize run keccak steps = s at *
  generalize step keccak s x = s' at v h1
  cases v with
  | list i k nft auth g0 hm hl hlock hs =>
    by_cases hi : id = i
    · subst hi
      simp only [listState, note, upd_same, Option.some.injEq] at h1
      subst h1
      refine ⟨nft, g0, ?_⟩
      rcases hs with ⟨rfl, -⟩ | ⟨cr, p, b, rfl, hp, -⟩
      · exact Or.inl rfl
      · exact Or.inr ⟨cr, p, rfl, hp⟩
    · simp only [listState, note, upd_ne _ _ hi, h0] at h1; cases h1
  | unlist i k nft auth g0 hl hs =>
    by_cases hi : id = i
    · subst hi; simp [unlistState, note] at h1
    · simp only [unlistState, note, upd_ne _ _ hi, h0] at h1; cases h1
  | transfer i new k nft auth g0 hl hs =>
    by_cases hi : id = i
    · subst hi; simp [transferState, note] at h1
    · simp only [transferState, note, upd_ne _ _ hi, h0] at h1; cases h1
  | same => rw [h0] at h1; cases h1
  | single => simp only [singleState, note, h0] at h1; cases h1
  | batchMint => simp only [batchMintState, note, h0] at h1; cases h1
  | create => simp only [createState, note, h0] at h1; cases h1
  | listBatch => simp only [listBatchState, note, h0] at h1; cases h1
  | endFiat => simp only [endBatchState, note, h0] at h1; cases h1
  | endEth => simp only [endBatchState, note, h0] at h1; cases h1

/-! ## C57 -/

/-- What protects a signed call once it was executed: its nonce is below the current one, or its external reference is taken. -/
def Spent (ns : Nonces) (c : Call) (s : State) : Prop :=
  match c with
  | .listNft _ i _ | .transferFiatNft _ i _ | .cancelListNft _ i =>
    ∃ n nft, ns.nft i = some n ∧ s.nfts i = some nft ∧ n.val < nft.nonce.val
  | .createBatch p .. | .listBatch p .. | .endBatchSale p .. => (ns.batch p.signer).val < (s.batchNonce p.signer).val
  | .mintSingleNft _ x _ _ => s.refs x.val = true
  | .mintBatchNft _ _ _ _ x => s.refs x.val = true
  | _ => False

/-- Nonces and used references only grow. -/
structure Mono (s s' : State) : Prop where
  nft : ∀ i nft, s.nfts i = some nft → ∃ nft', s'.nfts i = some nft' ∧ nft.nonce.val ≤ nft'.nonce.val
  batch : ∀ a, (s.batchNonce a).val ≤ (s'.batchNonce a).val
  refs : ∀ r, s.refs r = true → s'.refs r = true

theorem Spent.mono {ns : Nonces} {c : Call} {s s' : State} (h : Spent ns c s) (m : Mono s s') : Spent ns c s' := by
  have key : ∀ i, (∃ n nft, ns.nft i = some n ∧ s.nfts i = some nft ∧ n.val < nft.nonce.val) →
      ∃ n nft, ns.nft i = some n ∧ s'.nfts i = some nft ∧ n.val < nft.nonce.val := by
    rintro i ⟨n, nft, h1, h2, h3⟩
    obtain ⟨nft', g1, g2⟩ := m.nft i nft h2
    exact ⟨n, nft', h1, g1, by omega⟩
  cases c with
  | listNft p i k => exact key i h
  | transferFiatNft p i k => exact key i h
  | cancelListNft p i => exact key i h
  | createBatch p => exact Nat.lt_of_lt_of_le h (m.batch p.signer)
  | listBatch p => exact Nat.lt_of_lt_of_le h (m.batch p.signer)
  | endBatchSale p => exact Nat.lt_of_lt_of_le h (m.batch p.signer)
  | mintSingleNft p x => exact m.refs _ h
  | mintBatchNft p b i o x => exact m.refs _ h
  | _ => exact h

theorem fin_succ {n : U64} {k : Nat} (h : n.val ≤ k) (hk : k + 1 < 2 ^ 64) : (n + 1).val = n.val + 1 := by
  rw [Fin.val_add, show ((1 : U64).val) = 1 from rfl, Nat.mod_eq_of_lt (by omega)]

/-- The external reference of a mint is not used yet. -/
def Fresh (s : State) : Call → Prop
  | .mintSingleNft _ x _ _ => s.refs x.val = false
  | .mintBatchNft _ _ _ _ x => s.refs x.val = false
  | _ => True

/-- A call that was spent does not have the payload of a call that is accepted now, when both have the same signer. -/
theorem spent_fresh {ns : Nonces} {c c' : Call} {s : State} {b : List UInt8} (hs : Spent ns c s) (hf : Fresh s c')
    (h : payload ns c = some b) (h' : payload (view s) c' = some b) (hp : c.proof?.map (·.signer) = c'.proof?.map (·.signer)) : False := by
  obtain ⟨ha, hn, -⟩ := C72_payload_determines_call ns (view s) c c' b h h'
  cases c <;> (first | exact hs | skip) <;> cases c' <;> simp only [Call.agreed, reduceCtorEq] at ha <;> simp only [Spent, Fresh] at hs hf
  case mintSingleNft.mintSingleNft => simp only [Call.mintSingleNft.injEq] at ha; rw [ha.2.1, hf] at hs; cases hs
  case mintBatchNft.mintBatchNft => simp only [Call.mintBatchNft.injEq] at ha; rw [ha.2.2.2.2, hf] at hs; cases hs
  case listNft.listNft =>
    simp only [Call.listNft.injEq] at ha
    obtain ⟨n, nft, h1, h2, h3⟩ := hs
    simp only [nonceUsed, view, ← ha.2.1, h1, h2, Option.map_some, Option.some.injEq] at hn
    rw [hn] at h3; omega
  case transferFiatNft.transferFiatNft =>
    simp only [Call.transferFiatNft.injEq] at ha
    obtain ⟨n, nft, h1, h2, h3⟩ := hs
    simp only [nonceUsed, view, ← ha.2.1, h1, h2, Option.map_some, Option.some.injEq] at hn
    rw [hn] at h3; omega
  case cancelListNft.cancelListNft =>
    simp only [Call.cancelListNft.injEq] at ha
    obtain ⟨n, nft, h1, h2, h3⟩ := hs
    simp only [nonceUsed, view, ← ha.2, h1, h2, Option.map_some, Option.some.injEq] at hn
    rw [hn] at h3; omega
  case createBatch.createBatch =>
    simp only [Call.proof?, Option.map_some, Option.some.injEq] at hp
    simp only [nonceUsed, view, ← hp, Option.some.injEq] at hn
    rw [hn] at hs; omega
  case listBatch.listBatch =>
    simp only [Call.proof?, Option.map_some, Option.some.injEq] at hp
    simp only [nonceUsed, view, ← hp, Option.some.injEq] at hn
    rw [hn] at hs; omega
  case endBatchSale.endBatchSale =>
    simp only [Call.proof?, Option.map_some, Option.some.injEq] at hp
    simp only [nonceUsed, view, ← hp, Option.some.injEq] at hn
    rw [hn] at hs; omega

/-- What one step does to nonces, references and the authorisations on the log. -/
structure Effect (s s' : State) : Prop where
  log : s'.log = s.log ∨ ∃ o, s'.log = s.log ++ [o] ∧ ∀ c b, o.auth = some (c, b) →
    payload (view s) c = some b ∧ Fresh s c ∧ (s'.log.length < 2 ^ 64 → Spent (view s) c s')
  mono : s'.log.length < 2 ^ 64 → Mono s s'
  nft : s'.log.length < 2 ^ 64 → ∀ i nft, s'.nfts i = some nft → nft.nonce.val ≤ s'.log.length
  batch : s'.log.length < 2 ^ 64 → ∀ a, (s'.batchNonce a).val ≤ s'.log.length

/-- Nonces are bounded by the number of observations. -/
structure NonceBound (s : State) : Prop where
  nft : s.log.length < 2 ^ 64 → ∀ i nft, s.nfts i = some nft → nft.nonce.val ≤ s.log.length
  batch : s.log.length < 2 ^ 64 → ∀ a, (s.batchNonce a).val ≤ s.log.length

theorem Mono.refl (s : State) : Mono s s := ⟨fun _ nft h => ⟨nft, h, Nat.le_refl _⟩, fun _ => Nat.le_refl _, fun _ h => h⟩

/-- Steps that add or replace one NFT with a higher nonce and change nothing else that matters. -/
theorem effect_of_nft {s s' : State} {id : U256} {nft' : Nft} {w : What} {auth : Auth} (hb : NonceBound s)
    (hn : s'.nfts = upd s.nfts id (some nft')) (hbn : s'.batchNonce = s.batchNonce) (hlog : s'.log = s.log ++ [⟨w, auth⟩])
    (hr : ∀ r, s.refs r = true → s'.refs r = true)
    (hup : s.log.length + 1 < 2 ^ 64 → (∀ nft, s.nfts id = some nft → nft.nonce.val ≤ nft'.nonce.val) ∧ nft'.nonce.val ≤ s.log.length + 1)
    (hauth : ∀ c b, auth = some (c, b) → payload (view s) c = some b ∧ Fresh s c ∧ (s.log.length + 1 < 2 ^ 64 → Spent (view s) c s')) :
    Effect s s' := by
  have hlen : s'.log.length = s.log.length + 1 := by rw [hlog]; simp
  refine ⟨Or.inr ⟨_, hlog, ?_⟩, ?_, ?_, ?_⟩
  · intro c b hc
    obtain ⟨a1, a2, a3⟩ := hauth c b hc
    exact ⟨a1, a2, fun h => a3 (by omega)⟩
  · intro hl
    refine ⟨?_, fun a => by rw [hbn], hr⟩
    intro i nft hi
    rw [hn]
    by_cases hii : i = id
    · subst hii; exact ⟨nft', by simp, (hup (by omega)).1 nft hi⟩
    · exact ⟨nft, by rw [upd_ne _ _ hii]; exact hi, Nat.le_refl _⟩
  · intro hl i nft hi
    rw [hn] at hi
    by_cases hii : i = id
    · subst hii
      simp only [upd_same, Option.some.injEq] at hi
      subst hi
      rw [hlen]; exact (hup (by omega)).2
    · rw [upd_ne _ _ hii] at hi
      have := hb.nft (by omega) i nft hi
      omega
  · intro hl a
    rw [hbn]
    have := hb.batch (by omega) a
    omega

/-- Steps that raise the batch nonce of one account. -/
theorem effect_of_batch {s s' : State} {a : Acct} {w : What} {auth : Auth} (hb : NonceBound s)
    (hn : s'.nfts = s.nfts) (hbn : s'.batchNonce = upd s.batchNonce a (s.batchNonce a + 1)) (hlog : s'.log = s.log ++ [⟨w, auth⟩])
    (hr : s'.refs = s.refs)
    (hauth : ∀ c b, auth = some (c, b) → payload (view s) c = some b ∧ Fresh s c ∧
      ((s.batchNonce a).val < (s'.batchNonce a).val → Spent (view s) c s')) :
    Effect s s' := by
  have hlen : s'.log.length = s.log.length + 1 := by rw [hlog]; simp
  have hsucc : s.log.length + 1 < 2 ^ 64 → (s.batchNonce a + 1).val = (s.batchNonce a).val + 1 :=
    fun h => fin_succ (hb.batch (by omega) a) h
  refine ⟨Or.inr ⟨_, hlog, ?_⟩, ?_, ?_, ?_⟩
  · intro c b hc
    obtain ⟨a1, a2, a3⟩ := hauth c b hc
    exact ⟨a1, a2, fun h => a3 (by rw [hbn, upd_same, hsucc (by omega)]; omega)⟩
  · intro hl
    refine ⟨fun i nft hi => ⟨nft, by rw [hn]; exact hi, Nat.le_refl _⟩, ?_, by rw [hr]; exact fun _ h => h⟩
    intro x
    rw [hbn]
    by_cases hx : x = a
    · subst hx; rw [upd_same, hsucc (by omega)]; omega
    · rw [upd_ne _ _ hx]
  · intro hl i nft hi
    rw [hn] at hi
    have := hb.nft (by omega) i nft hi
    omega
  · intro hl x
    rw [hbn]
    have := hb.batch (by omega) x
    by_cases hx : x = a
    · subst hx; rw [upd_same, hsucc (by omega)]; omega
    · rw [upd_ne _ _ hx]; omega

theorem effect {keccak : List UInt8 → Hash} {s s' : State} {x : Step} (hb : NonceBound s) (v : View keccak s x s') : Effect s s' := by
  have keep : ∀ (e : List UInt8) r, s.refs r = true → upd s.refs e true r = true := by
    intro e r h; by_cases hr : r = e <;> simp [upd, hr, h]
  cases v with
  | same => exact ⟨Or.inl rfl, fun _ => Mono.refl s, hb.nft, hb.batch⟩
  | single r o y t1 auth hid href hroy hs =>
    refine effect_of_nft hb (id := singleId keccak t1 s.nextUnique) (nft' := ⟨s.nextInfo, r, 0, o, false⟩) rfl rfl rfl (keep r) ?_ ?_
    · intro _; exact ⟨fun nft h => (by rw [hid] at h; cases h), Nat.zero_le _⟩
    · rintro c b rfl
      rcases hs with ⟨-, h⟩ | ⟨cr, p, r', y', b', -, rfl, -, -, h, hsg⟩
      · cases h
      · cases h
        exact ⟨hsg.2.1, href, fun _ => by simp [Spent, singleState, note]⟩
  | batchMint batch i r o m auth k info hid href hk hi hlen hm hs =>
    refine effect_of_nft hb (id := batchNftId keccak batch i) (nft' := ⟨(s.batchInfo batch).getD 0, r, 0, o, false⟩) rfl rfl rfl (keep r) ?_ ?_
    · intro _; exact ⟨fun nft h => (by rw [hid] at h; cases h), Nat.zero_le _⟩
    · rintro c b rfl
      rcases hs with ⟨known, -, -, -, h⟩ | ⟨cr, p, r', b', -, rfl, -, -, h, hsg⟩
      · cases h
      · cases h
        exact ⟨hsg.2.1, href, fun _ => by simp [Spent, batchMintState, note]⟩
  | list id m nft auth h0 hm hl hlock hs =>
    have hsucc : s.log.length + 1 < 2 ^ 64 → (nft.nonce + 1).val = nft.nonce.val + 1 := fun h => fin_succ (hb.nft (by omega) id nft h0) h
    refine effect_of_nft hb (id := id) (nft' := bump nft) rfl rfl rfl (fun _ h => h) ?_ ?_
    · intro hlt
      have := hb.nft (by omega) id nft h0
      refine ⟨fun n h => ?_, ?_⟩
      · rw [h0] at h; cases h; simp only [bump]; rw [hsucc hlt]; omega
      · simp only [bump]; rw [hsucc hlt]; omega
    · rintro c b rfl
      rcases hs with ⟨-, h⟩ | ⟨cr, p, b', -, -, h, hsg⟩
      · cases h
      · cases h
        refine ⟨hsg.2.1, trivial, fun hlt => ⟨nft.nonce, bump nft, by simp [view, h0], by simp [listState, note], ?_⟩⟩
        simp only [bump]; rw [hsucc hlt]; omega
  | transfer id new m nft auth h0 hl hs =>
    have hsucc : s.log.length + 1 < 2 ^ 64 → (nft.nonce + 1).val = nft.nonce.val + 1 := fun h => fin_succ (hb.nft (by omega) id nft h0) h
    refine effect_of_nft hb (id := id) (nft' := { nft with owner := new, nonce := nft.nonce + 1 }) rfl rfl rfl (fun _ h => h) ?_ ?_
    · intro hlt
      have := hb.nft (by omega) id nft h0
      refine ⟨fun n h => ?_, ?_⟩
      · rw [h0] at h; cases h; rw [hsucc hlt]; omega
      · rw [hsucc hlt]; omega
    · rintro c b rfl
      rcases hs with ⟨known, -, -, -, h⟩ | ⟨cr, p, b', -, -, -, h, hsg⟩
      · cases h
      · cases h
        refine ⟨hsg.2.1, trivial, fun hlt => ⟨nft.nonce, _, by simp [view, h0], by simp [transferState, note]; rfl, ?_⟩⟩
        rw [hsucc hlt]; omega
  | unlist id m nft auth h0 hl hs =>
    have hsucc : s.log.length + 1 < 2 ^ 64 → (nft.nonce + 1).val = nft.nonce.val + 1 := fun h => fin_succ (hb.nft (by omega) id nft h0) h
    refine effect_of_nft hb (id := id) (nft' := bump nft) rfl rfl rfl (fun _ h => h) ?_ ?_
    · intro hlt
      have := hb.nft (by omega) id nft h0
      refine ⟨fun n h => ?_, ?_⟩
      · rw [h0] at h; cases h; simp only [bump]; rw [hsucc hlt]; omega
      · simp only [bump]; rw [hsucc hlt]; omega
    · rintro c b rfl
      rcases hs with ⟨known, -, -, -, h⟩ | ⟨cr, p, b', -, -, -, h, hsg⟩
      · cases h
      · cases h
        refine ⟨hsg.2.1, trivial, fun hlt => ⟨nft.nonce, bump nft, by simp [view, h0], by simp [unlistState, note], ?_⟩⟩
        simp only [bump]; rw [hsucc hlt]; omega
  | create cr p n y t1 b hx h0 h1 hid hroy hs =>
    refine effect_of_batch hb (a := p.signer) rfl rfl rfl rfl ?_
    rintro c b' h; cases h
    exact ⟨hs.2.1, trivial, fun h => h⟩
  | listBatch cr p batch m b k info hx hm hk hi hc hl hlen hs =>
    refine effect_of_batch hb (a := p.signer) rfl rfl rfl rfl ?_
    rintro c b' h; cases h
    exact ⟨hs.2.1, trivial, fun h => h⟩
  | endFiat cr p batch b k info hx hk hi hc hl hs =>
    refine effect_of_batch hb (a := p.signer) rfl rfl rfl rfl ?_
    rintro c b' h; cases h
    exact ⟨hs.2.1, trivial, fun h => h⟩
  | endEth known batch hx hk hl =>
    refine ⟨Or.inr ⟨_, rfl, by intro c b h; cases h⟩, fun _ => ⟨fun i nft hi => ⟨nft, hi, Nat.le_refl _⟩, fun _ => Nat.le_refl _, fun _ h => h⟩, ?_, ?_⟩
    · intro hlt i nft hi
      have hlen : (endBatchState batch .ethereum none none s).log.length = s.log.length + 1 := by simp [endBatchState, note]
      have := hb.nft (by omega) i nft hi
      omega
    · intro hlt a
      have hlen : (endBatchState batch .ethereum none none s).log.length = s.log.length + 1 := by simp [endBatchState, note]
      have : (s.batchNonce a).val ≤ s.log.length := hb.batch (by omega) a
      have e : (endBatchState batch .ethereum none none s).batchNonce a = s.batchNonce a := rfl
      rw [e, hlen]; omega

/-- Every authorisation on the log is spent, and no two of one signer have the same bytes. -/
structure ReplayInv (s : State) : Prop where
  bound : NonceBound s
  spent : s.log.length < 2 ^ 64 → ∀ o ∈ s.log, ∀ c b, o.auth = some (c, b) → ∃ ns, payload ns c = some b ∧ Spent ns c s
  once : s.log.length < 2 ^ 64 → s.log.Pairwise fun o o' => ∀ c b c' b', o.auth = some (c, b) → o'.auth = some (c', b') →
    c.proof?.map (·.signer) = c'.proof?.map (·.signer) → b ≠ b'

theorem ReplayInv.view {keccak : List UInt8 → Hash} {s s' : State} {x : Step} (h : ReplayInv s) (v : View keccak s x s') : ReplayInv s' := by
  have e := effect h.bound v
  refine ⟨⟨e.nft, e.batch⟩, ?_, ?_⟩
  · intro hlen o ho c b hc
    rcases e.log with hl | ⟨o', hl, ha⟩
    · rw [hl] at ho
      obtain ⟨ns, h1, h2⟩ := h.spent (by rw [← hl]; exact hlen) o ho c b hc
      exact ⟨ns, h1, h2.mono (e.mono hlen)⟩
    · rw [hl] at ho
      rcases List.mem_append.mp ho with ho | ho
      · obtain ⟨ns, h1, h2⟩ := h.spent (by rw [hl] at hlen; simp at hlen; omega) o ho c b hc
        exact ⟨ns, h1, h2.mono (e.mono hlen)⟩
      · simp only [List.mem_cons, List.not_mem_nil, or_false] at ho
        subst ho
        obtain ⟨h1, -, h2⟩ := ha c b hc
        exact ⟨Nft.view s, h1, h2 hlen⟩
  · intro hlen
    rcases e.log with hl | ⟨o', hl, ha⟩
    · rw [hl]; exact h.once (by rw [← hl]; exact hlen)
    · have hlen' : s.log.length < 2 ^ 64 := by rw [hl] at hlen; simp at hlen; omega
      rw [hl, List.pairwise_append]
      refine ⟨h.once hlen', List.pairwise_singleton _ _, ?_⟩
      intro o ho o2 ho2 c b c' b' hc hc' hsig hbb
      simp only [List.mem_cons, List.not_mem_nil, or_false] at ho2
      subst ho2
      subst hbb
      obtain ⟨ns, h1, h2⟩ := h.spent hlen' o ho c b hc
      obtain ⟨g1, g2, -⟩ := ha c' b hc'
      exact spent_fresh h2 g2 h1 g1 hsig

theorem run_replay (keccak : List UInt8 → Hash) (steps : List Step) : ReplayInv (run keccak steps) := by
  refine run_invariant keccak ?_ (fun s x s' h v => h.view v) steps
  exact ⟨⟨by simp [init], by simp [init]⟩, by simp [init], by simp [init]⟩

/-- C57: in every history, no two signed NFT calls of one signer were executed on the strength of the same signed bytes: whoever
replays an authorisation, in whatever order, is refused. (For fewer than 2^64 executed calls.) -/
theorem C57_no_authorisation_executed_twice (keccak : List UInt8 → Hash) (steps : List Step) (l1 l2 l3 : List Obs) (o o' : Obs)
    (c c' : Call) (b b' : List UInt8) (hlog : (run keccak steps).log = l1 ++ o :: l2 ++ o' :: l3)
    (ho : o.auth = some (c, b)) (ho' : o'.auth = some (c', b')) (hs : c.proof?.map (·.signer) = c'.proof?.map (·.signer))
    (hlen : (run keccak steps).log.length < 2 ^ 64) : b ≠ b' := by
  have h := (run_replay keccak steps).once hlen
  rw [hlog, List.append_assoc, List.pairwise_append] at h
  have h2 := h.2.1
  rw [List.cons_append, List.pairwise_cons] at h2
  exact h2.1 o' (by simp) c b c' b' ho ho' hs

/-- C57: what was executed as a signed call was signed: the proof's signature verifies over the bytes on the log, which are the
payload of exactly this call with its current nonce (`C72_payload_determines_call`), and the signer is the account that acts. -/
theorem C57_executed_was_signed (keccak : List UInt8 → Hash) (steps : List Step) (x : Step) (w : What) (c : Call) (b : List UInt8)
    (h : (step keccak (run keccak steps) x).log = (run keccak steps).log ++ [⟨w, some (c, b)⟩]) :
    ∃ cr p, c.proof? = some p ∧ payload (view (run keccak steps)) c = some b ∧ verifySignature cr p b = true := by
  have v := run_view keccak steps x
  generalize run keccak steps = s at *
  generalize step keccak s x = s' at v h
  cases v with
  | same => simp at h
  | single r o y t1 auth hid href hroy hs =>
    have := List.append_cancel_left h; simp only [List.cons.injEq, Obs.mk.injEq, and_true] at this
    obtain ⟨-, ha⟩ := this
    subst ha
    rcases hs with ⟨-, h⟩ | ⟨cr, p, r', y', b', -, -, -, -, h, hsg⟩
    · cases h
    · cases h; exact ⟨cr, p, hsg⟩
  | batchMint batch i r o m auth k info hid href hk hi hlen hm hs =>
    have := List.append_cancel_left h; simp only [List.cons.injEq, Obs.mk.injEq, and_true] at this
    obtain ⟨-, ha⟩ := this
    subst ha
    rcases hs with ⟨known, -, -, -, h⟩ | ⟨cr, p, r', b', -, -, -, -, h, hsg⟩
    · cases h
    · cases h; exact ⟨cr, p, hsg⟩
  | list id m nft auth h0 hm hl hlock hs =>
    have := List.append_cancel_left h; simp only [List.cons.injEq, Obs.mk.injEq, and_true] at this
    obtain ⟨-, ha⟩ := this
    subst ha
    rcases hs with ⟨-, h⟩ | ⟨cr, p, b', -, -, h, hsg⟩
    · cases h
    · cases h; exact ⟨cr, p, hsg⟩
  | transfer id new m nft auth h0 hl hs =>
    have := List.append_cancel_left h; simp only [List.cons.injEq, Obs.mk.injEq, and_true] at this
    obtain ⟨-, ha⟩ := this
    subst ha
    rcases hs with ⟨known, -, -, -, h⟩ | ⟨cr, p, b', -, -, -, h, hsg⟩
    · cases h
    · cases h; exact ⟨cr, p, hsg⟩
  | unlist id m nft auth h0 hl hs =>
    have := List.append_cancel_left h; simp only [List.cons.injEq, Obs.mk.injEq, and_true] at this
    obtain ⟨-, ha⟩ := this
    subst ha
    rcases hs with ⟨known, -, -, -, h⟩ | ⟨cr, p, b', -, -, -, h, hsg⟩
    · cases h
    · cases h; exact ⟨cr, p, hsg⟩
  | create cr p n y t1 b' hx h0 h1 hid hroy hs =>
    have := List.append_cancel_left h; simp only [List.cons.injEq, Obs.mk.injEq, and_true] at this
    obtain ⟨-, ha⟩ := this
    cases ha; exact ⟨cr, p, hs⟩
  | listBatch cr p batch m b' k info hx hm hk hi hc hl hlen hs =>
    have := List.append_cancel_left h; simp only [List.cons.injEq, Obs.mk.injEq, and_true] at this
    obtain ⟨-, ha⟩ := this
    cases ha; exact ⟨cr, p, hs⟩
  | endFiat cr p batch b' k info hx hk hi hc hl hs =>
    have := List.append_cancel_left h; simp only [List.cons.injEq, Obs.mk.injEq, and_true] at this
    obtain ⟨-, ha⟩ := this
    cases ha; exact ⟨cr, p, hs⟩
  | endEth known batch hx hk hl =>
    have := List.append_cancel_left h; simp only [List.cons.injEq, Obs.mk.injEq, and_true] at this
    obtain ⟨-, ha⟩ := this
    cases ha

/-! ## C58 -/

/-- The id and the external reference of a mint. -/
def mintOf (o : Obs) : Option (U256 × List UInt8) :=
  match o.what with
  | .minted id r _ _ _ => some (id, r)
  | _ => none

/-- Minted ids and references are taken. -/
structure MintInv (s : State) : Prop where
  taken : ∀ p ∈ s.log.filterMap mintOf, ∃ nft, s.nfts p.1 = some nft ∧ nft.extRef = p.2 ∧ s.refs p.2 = true
  once : (s.log.filterMap mintOf).Pairwise fun p q => p.1 ≠ q.1 ∧ p.2 ≠ q.2

theorem filterMap_snoc (l : List Obs) (o : Obs) : (l ++ [o]).filterMap mintOf = l.filterMap mintOf ++ (mintOf o).toList := by
  rw [List.filterMap_append]
  cases h : mintOf o <;> simp [List.filterMap_cons, h]

/-- A step that mints. -/
theorem mint_step {s s' : State} {id : U256} {r : List UInt8} {nft : Nft} {o : Obs} (h : MintInv s) (hl : s'.log = s.log ++ [o])
    (ho : mintOf o = some (id, r)) (hid : s.nfts id = none) (href : s.refs r = false) (hn : s'.nfts = upd s.nfts id (some nft))
    (he : nft.extRef = r) (hr : s'.refs = upd s.refs r true) : MintInv s' := by
  constructor
  · intro p hp
    rw [hl, filterMap_snoc, ho] at hp
    rcases List.mem_append.mp hp with hp | hp
    · obtain ⟨n, h1, h2, h3⟩ := h.taken p hp
      refine ⟨n, ?_, h2, ?_⟩
      · rw [hn, upd_ne]
        · exact h1
        · intro e; rw [e, hid] at h1; cases h1
      · rw [hr]; by_cases e : p.2 = r <;> simp [upd, e, h3]
    · simp only [Option.toList_some, List.mem_cons, List.not_mem_nil, or_false] at hp
      subst hp
      exact ⟨nft, by rw [hn]; simp, he, by rw [hr]; simp⟩
  · rw [hl, filterMap_snoc, ho, Option.toList_some, List.pairwise_append]
    refine ⟨h.once, List.pairwise_singleton _ _, ?_⟩
    intro p hp q hq
    simp only [List.mem_cons, List.not_mem_nil, or_false] at hq
    subst hq
    obtain ⟨n, h1, h2, h3⟩ := h.taken p hp
    constructor
    · intro e; rw [e, hid] at h1; cases h1
    · intro e; rw [e, href] at h3; cases h3

/-- A step that does not mint. -/
theorem other_step {s s' : State} {o : Obs} (h : MintInv s) (hl : s'.log = s.log ++ [o]) (ho : mintOf o = none)
    (hn : ∀ i nft, s.nfts i = some nft → ∃ nft', s'.nfts i = some nft' ∧ nft'.extRef = nft.extRef) (hr : s'.refs = s.refs) : MintInv s' := by
  constructor
  · intro p hp
    rw [hl, filterMap_snoc, ho] at hp
    simp only [Option.toList_none, List.append_nil] at hp
    obtain ⟨n, h1, h2, h3⟩ := h.taken p hp
    obtain ⟨n', g1, g2⟩ := hn _ n h1
    exact ⟨n', g1, g2.trans h2, by rw [hr]; exact h3⟩
  · rw [hl, filterMap_snoc, ho]
    simpa using h.once

theorem upd_extRef {s : State} {id : U256} {nft nft' : Nft} (h0 : s.nfts id = some nft) (he : nft'.extRef = nft.extRef) :
    ∀ i n, s.nfts i = some n → ∃ n', upd s.nfts id (some nft') i = some n' ∧ n'.extRef = n.extRef := by
  intro i n hi
  by_cases e : i = id
  · subst e
    rw [h0] at hi; cases hi
    exact ⟨nft', by simp, he⟩
  · exact ⟨n, by rw [upd_ne _ _ e]; exact hi, rfl⟩

theorem MintInv.view {keccak : List UInt8 → Hash} {s s' : State} {x : Step} (h : MintInv s) (v : View keccak s x s') : MintInv s' := by
  cases v with
  | same => exact h
  | single r o y t1 auth hid href =>
    exact mint_step (nft := ⟨s.nextInfo, r, 0, o, false⟩) h rfl rfl hid href rfl rfl rfl
  | batchMint batch i r o m auth k info hid href =>
    exact mint_step (nft := ⟨(s.batchInfo batch).getD 0, r, 0, o, false⟩) h rfl rfl hid href rfl rfl rfl
  | list id m nft auth h0 => exact other_step h rfl rfl (upd_extRef h0 rfl) rfl
  | transfer id new m nft auth h0 => exact other_step h rfl rfl (upd_extRef h0 rfl) rfl
  | unlist id m nft auth h0 => exact other_step h rfl rfl (upd_extRef h0 rfl) rfl
  | create => exact other_step h rfl rfl (fun i n hi => ⟨n, hi, rfl⟩) rfl
  | listBatch => exact other_step h rfl rfl (fun i n hi => ⟨n, hi, rfl⟩) rfl
  | endFiat => exact other_step h rfl rfl (fun i n hi => ⟨n, hi, rfl⟩) rfl
  | endEth => exact other_step h rfl rfl (fun i n hi => ⟨n, hi, rfl⟩) rfl

theorem run_mint (keccak : List UInt8 → Hash) (steps : List Step) : MintInv (run keccak steps) :=
  run_invariant keccak ⟨by simp [init], by simp [init]⟩ (fun _ _ _ h v => h.view v) steps

/-- C58: in every history the mints, single or batch, from whatever market, have pairwise different ids and pairwise different
external references, even if the hash that generates ids collides; and each minted NFT still exists with its reference. -/
theorem C58_ids_and_references_unique (keccak : List UInt8 → Hash) (steps : List Step) :
    (((run keccak steps).log.filterMap mintOf).map Prod.fst).Nodup ∧ (((run keccak steps).log.filterMap mintOf).map Prod.snd).Nodup ∧
    ∀ p ∈ (run keccak steps).log.filterMap mintOf, ∃ nft, (run keccak steps).nfts p.1 = some nft ∧ nft.extRef = p.2 := by
  have h := run_mint keccak steps
  refine ⟨?_, ?_, fun p hp => ?_⟩
  · exact List.pairwise_map.mpr (h.once.imp fun h => h.1)
  · exact List.pairwise_map.mpr (h.once.imp fun h => h.2)
  · obtain ⟨n, h1, h2, -⟩ := h.taken p hp
    exact ⟨n, h1, h2⟩

/-- C58: no two existing NFTs share an external reference. -/
theorem C58_existing_references_differ (keccak : List UInt8 → Hash) (steps : List Step) (i j : U256) (n m : Nft)
    (hi : (run keccak steps).nfts i = some n) (hj : (run keccak steps).nfts j = some m) (hr : n.extRef = m.extRef) : i = j := by
  have key : ∀ i n, (run keccak steps).nfts i = some n → (i, n.extRef) ∈ (run keccak steps).log.filterMap mintOf := by
    refine run_invariant (P := fun s => ∀ i n, s.nfts i = some n → (i, n.extRef) ∈ s.log.filterMap mintOf) keccak (by simp [init]) ?_ steps
    intro s x s' h v i n hi
    have grow : ∀ o, (∀ p, p ∈ s.log.filterMap mintOf → p ∈ (s.log ++ [o]).filterMap mintOf) := by
      intro o p hp; rw [filterMap_snoc]; exact List.mem_append_left _ hp
    have new : ∀ (id : U256) (nft : Nft) (o : Obs), mintOf o = some (id, nft.extRef) → upd s.nfts id (some nft) i = some n →
        (i, n.extRef) ∈ (s.log ++ [o]).filterMap mintOf := by
      intro id nft o ho hu
      by_cases e : i = id
      · subst e
        simp only [upd_same, Option.some.injEq] at hu
        subst hu
        rw [filterMap_snoc, ho]; simp
      · rw [upd_ne _ _ e] at hu; exact grow o _ (h i n hu)
    have alter : ∀ (id : U256) (nft nft' : Nft) (o : Obs), s.nfts id = some nft → nft'.extRef = nft.extRef →
        upd s.nfts id (some nft') i = some n → (i, n.extRef) ∈ (s.log ++ [o]).filterMap mintOf := by
      intro id nft nft' o h0 he hu
      by_cases e : i = id
      · subst e
        simp only [upd_same, Option.some.injEq] at hu
        subst hu
        rw [he]; exact grow o _ (h i nft h0)
      · rw [upd_ne _ _ e] at hu; exact grow o _ (h i n hu)
    cases v with
    | same => exact h i n hi
    | single r o y t1 auth => exact new _ ⟨s.nextInfo, r, 0, o, false⟩ _ rfl hi
    | batchMint batch k r o m auth => exact new _ ⟨(s.batchInfo batch).getD 0, r, 0, o, false⟩ _ rfl hi
    | list id m nft auth h0 => exact alter id nft (bump nft) _ h0 rfl hi
    | transfer id new m nft auth h0 => exact alter id nft { nft with owner := new, nonce := nft.nonce + 1 } _ h0 rfl hi
    | unlist id m nft auth h0 => exact alter id nft (bump nft) _ h0 rfl hi
    | create => exact grow _ _ (h i n hi)
    | listBatch => exact grow _ _ (h i n hi)
    | endFiat => exact grow _ _ (h i n hi)
    | endEth => exact grow _ _ (h i n hi)
  have h1 := key i n hi
  have h2 := key j m hj
  rw [hr] at h1
  by_contra hne
  have hp := (run_mint keccak steps).once
  obtain ⟨a, ha⟩ := List.mem_iff_getElem.mp h1
  obtain ⟨b, hb⟩ := List.mem_iff_getElem.mp h2
  obtain ⟨hal, ha⟩ := ha
  obtain ⟨hbl, hb⟩ := hb
  have hab : a ≠ b := by
    intro e; subst e
    rw [ha] at hb
    exact hne (congrArg Prod.fst hb)
  rcases Nat.lt_or_gt_of_ne hab with hlt | hgt
  · have := (List.pairwise_iff_getElem.mp hp) a b hal hbl hlt
    rw [ha, hb] at this
    exact this.2 rfl
  · have := (List.pairwise_iff_getElem.mp hp) b a hbl hal hgt
    rw [ha, hb] at this
    exact this.2 rfl

/-! ## C59 -/

/-- A mint from the given batch. -/
def mintedFrom (b : U256) (o : Obs) : Bool :=
  match o.what with
  | .minted _ _ _ (some k) _ => k == b
  | _ => false

/-- The creation of the given batch. -/
def createdAs (b : U256) (o : Obs) : Option (U64 × Acct) :=
  match o.what with
  | .batchCreated k n a => if k = b then some (n, a) else none
  | _ => none

/-- Batches, their records and their mints agree. -/
structure BatchInv (s : State) : Prop where
  infoLt : ∀ k info, s.infos k = some info → k < s.nextInfo
  count : ∀ b, s.log.countP (mintedFrom b) = (s.batches b).length
  le : ∀ b k info, s.batchInfo b = some k → s.infos k = some info → (s.batches b).length ≤ info.supply.val
  empty : ∀ b, s.batchInfo b = none → s.batches b = []
  known : ∀ b k, s.batchInfo b = some k → ∃ info, s.infos k = some info
  created : ∀ b k info, s.batchInfo b = some k → s.infos k = some info →
    ∃ a, info.creator = some a ∧ s.log.filterMap (createdAs b) = [(info.supply, a)]
  fresh : ∀ b, s.batchInfo b = none → s.log.filterMap (createdAs b) = []

theorem countP_snoc (b : U256) (l : List Obs) (o : Obs) :
    (l ++ [o]).countP (mintedFrom b) = l.countP (mintedFrom b) + if mintedFrom b o then 1 else 0 := by
  rw [List.countP_append]; simp [List.countP_cons]

theorem created_snoc (b : U256) (l : List Obs) (o : Obs) :
    (l ++ [o]).filterMap (createdAs b) = l.filterMap (createdAs b) ++ (createdAs b o).toList := by
  rw [List.filterMap_append]
  cases h : createdAs b o <;> simp [List.filterMap_cons, h]

/-- A step that leaves batches and infos alone and logs neither a batch mint nor a batch creation. -/
theorem batch_other {s s' : State} {o : Obs} (h : BatchInv s) (hl : s'.log = s.log ++ [o]) (h1 : ∀ b, mintedFrom b o = false)
    (h2 : ∀ b, createdAs b o = none) (e1 : s'.infos = s.infos) (e2 : s'.nextInfo = s.nextInfo) (e3 : s'.batches = s.batches)
    (e4 : s'.batchInfo = s.batchInfo) : BatchInv s' := by
  constructor
  · rw [e1, e2]; exact h.infoLt
  · intro b; rw [hl, countP_snoc, h1, e3]; simpa using h.count b
  · rw [e1, e3, e4]; exact h.le
  · rw [e3, e4]; exact h.empty
  · rw [e1, e4]; exact h.known
  · intro b k info g1 g2
    rw [e4] at g1; rw [e1] at g2
    rw [hl, created_snoc, h2]
    simpa using h.created b k info g1 g2
  · intro b g
    rw [e4] at g
    rw [hl, created_snoc, h2]
    simpa using h.fresh b g

theorem BatchInv.view {keccak : List UInt8 → Hash} {s s' : State} {x : Step} (h : BatchInv s) (v : View keccak s x s') : BatchInv s' := by
  cases v with
  | same => exact h
  | list => exact batch_other h rfl (fun _ => rfl) (fun _ => rfl) rfl rfl rfl rfl
  | transfer => exact batch_other h rfl (fun _ => rfl) (fun _ => rfl) rfl rfl rfl rfl
  | unlist => exact batch_other h rfl (fun _ => rfl) (fun _ => rfl) rfl rfl rfl rfl
  | listBatch => exact batch_other h rfl (fun _ => rfl) (fun _ => rfl) rfl rfl rfl rfl
  | endFiat => exact batch_other h rfl (fun _ => rfl) (fun _ => rfl) rfl rfl rfl rfl
  | endEth => exact batch_other h rfl (fun _ => rfl) (fun _ => rfl) rfl rfl rfl rfl
  | single r o y t1 auth hid href hroy hs =>
    have hne : ∀ b k, s.batchInfo b = some k → k ≠ s.nextInfo := by
      intro b k hk e
      obtain ⟨info, hi⟩ := h.known b k hk
      have := h.infoLt k info hi
      omega
    constructor
    · intro k info hk
      simp only [singleState, note] at hk ⊢
      by_cases e : k = s.nextInfo
      · omega
      · rw [upd_ne _ _ e] at hk; have := h.infoLt k info hk; omega
    · intro b
      simp only [singleState, note]
      rw [countP_snoc, h.count b]
      simp [mintedFrom]
    · intro b k info g1 g2
      simp only [singleState, note] at g1 g2 ⊢
      rw [upd_ne _ _ (hne b k g1)] at g2
      exact h.le b k info g1 g2
    · exact h.empty
    · intro b k hk
      simp only [singleState, note] at hk ⊢
      rw [upd_ne _ _ (hne b k hk)]
      exact h.known b k hk
    · intro b k info g1 g2
      simp only [singleState, note] at g1 g2 ⊢
      rw [upd_ne _ _ (hne b k g1)] at g2
      rw [created_snoc]
      simpa [createdAs] using h.created b k info g1 g2
    · intro b g
      simp only [singleState, note] at g ⊢
      rw [created_snoc]
      simpa [createdAs] using h.fresh b g
  | batchMint batch i r o m auth k0 info0 hid href hk0 hi0 hlen hm hs =>
    constructor
    · exact h.infoLt
    · intro b
      simp only [batchMintState, note]
      rw [countP_snoc, h.count b]
      by_cases e : b = batch
      · subst e; simp [mintedFrom]
      · rw [upd_ne _ _ e]
        simp [mintedFrom, Ne.symm e]
    · intro b k info g1 g2
      simp only [batchMintState, note] at g1 g2 ⊢
      by_cases e : b = batch
      · subst e
        rw [hk0] at g1; cases g1
        rw [hi0] at g2; cases g2
        simp; omega
      · rw [upd_ne _ _ e]; exact h.le b k info g1 g2
    · intro b g
      simp only [batchMintState, note] at g ⊢
      rw [upd_ne]
      · exact h.empty b g
      · intro e; subst e; rw [hk0] at g; cases g
    · exact h.known
    · intro b k info g1 g2
      simp only [batchMintState, note] at g1 g2 ⊢
      rw [created_snoc]
      simpa [createdAs] using h.created b k info g1 g2
    · intro b g
      simp only [batchMintState, note] at g ⊢
      rw [created_snoc]
      simpa [createdAs] using h.fresh b g
  | create cr p n y t1 b0 hx h0 h1 hid hroy hs =>
    have hne : ∀ b k, s.batchInfo b = some k → k ≠ s.nextInfo := by
      intro b k hk e
      obtain ⟨info, hi⟩ := h.known b k hk
      have := h.infoLt k info hi
      omega
    constructor
    · intro k info hk
      simp only [createState, note] at hk ⊢
      by_cases e : k = s.nextInfo
      · omega
      · rw [upd_ne _ _ e] at hk; have := h.infoLt k info hk; omega
    · intro b
      simp only [createState, note]
      rw [countP_snoc, h.count b]
      simp [mintedFrom]
    · intro b k info g1 g2
      simp only [createState, note] at g1 g2 ⊢
      by_cases e : b = batchIdOf keccak s.nextUnique
      · subst e
        rw [h.empty _ hid]; exact Nat.zero_le _
      · rw [upd_ne _ _ e] at g1
        rw [upd_ne _ _ (hne b k g1)] at g2
        exact h.le b k info g1 g2
    · intro b g
      simp only [createState, note] at g ⊢
      by_cases e : b = batchIdOf keccak s.nextUnique
      · subst e; exact h.empty _ hid
      · rw [upd_ne _ _ e] at g; exact h.empty b g
    · intro b k hk
      simp only [createState, note] at hk ⊢
      by_cases e : b = batchIdOf keccak s.nextUnique
      · subst e
        simp only [upd_same, Option.some.injEq] at hk
        subst hk
        exact ⟨_, by rw [upd_same]⟩
      · rw [upd_ne _ _ e] at hk
        rw [upd_ne _ _ (hne b k hk)]
        exact h.known b k hk
    · intro b k info g1 g2
      simp only [createState, note] at g1 g2 ⊢
      rw [created_snoc]
      by_cases e : b = batchIdOf keccak s.nextUnique
      · subst e
        simp only [upd_same, Option.some.injEq] at g1
        subst g1
        simp only [upd_same, Option.some.injEq] at g2
        subst g2
        rw [h.fresh _ hid]
        exact ⟨p.signer, rfl, by simp [createdAs]⟩
      · rw [upd_ne _ _ e] at g1
        rw [upd_ne _ _ (hne b k g1)] at g2
        simpa [createdAs, Ne.symm e] using h.created b k info g1 g2
    · intro b g
      simp only [createState, note] at g ⊢
      rw [created_snoc]
      by_cases e : b = batchIdOf keccak s.nextUnique
      · subst e; simp at g
      · rw [upd_ne _ _ e] at g
        simpa [createdAs, Ne.symm e] using h.fresh b g

theorem run_batch (keccak : List UInt8 → Hash) (steps : List Step) : BatchInv (run keccak steps) := by
  refine run_invariant keccak ?_ (fun _ _ _ h v => h.view v) steps
  constructor <;> simp [init]

/-- C59: in every history, a batch is created at most once, never with more than 16384 NFTs, and the number of NFTs minted from it never
exceeds the supply it was created with; from a batch that was not created nothing is minted. -/
theorem C59_supply_never_exceeded (keccak : List UInt8 → Hash) (steps : List Step) (b : U256) :
    ((run keccak steps).log.filterMap (createdAs b) = [] ∧ (run keccak steps).log.countP (mintedFrom b) = 0) ∨
    ∃ supply creator, (run keccak steps).log.filterMap (createdAs b) = [(supply, creator)] ∧ supply.val ≤ 16384 ∧
      (run keccak steps).log.countP (mintedFrom b) ≤ supply.val := by
  have h := run_batch keccak steps
  cases hk : (run keccak steps).batchInfo b with
  | none => left; exact ⟨h.fresh b hk, by rw [h.count, h.empty b hk]; rfl⟩
  | some k =>
    right
    obtain ⟨info, hi⟩ := h.known b k hk
    obtain ⟨a, -, ha⟩ := h.created b k info hk hi
    exact ⟨info.supply, a, ha, run_supply keccak steps k info hi, by rw [h.count]; exact h.le b k info hk hi⟩

/-- C59: a batch mint happens only while the batch is listed on the market it comes from: a processed Ethereum event for an Ethereum
sale, a signed call of the batch's creator for a fiat sale. -/
theorem C59_mint_only_while_listed (keccak : List UInt8 → Hash) (steps : List Step) (x : Step) (id b : U256) (r : List UInt8) (o : Acct)
    (m : Market) (auth : Auth)
    (h : (step keccak (run keccak steps) x).log = (run keccak steps).log ++ [⟨.minted id r o (some b) m, auth⟩]) :
    (run keccak steps).batchListed b = some m ∧
    ((m = .ethereum ∧ ∃ i, x = .ethMint true b o i r) ∨
     (m = .fiat ∧ ∃ cr p i y n, x = .signedMintBatch cr p.signer p b i o y ∧ y.val = r ∧
        (run keccak steps).log.filterMap (createdAs b) = [(n, p.signer)])) := by
  have v := run_view keccak steps x
  have hb := run_batch keccak steps
  generalize run keccak steps = s at *
  generalize step keccak s x = s' at v h
  cases v with
  | same => simp at h
  | batchMint batch i r' o' m' auth k info hid href hk hi hlen hm hs =>
    have := List.append_cancel_left h
    simp only [List.cons.injEq, Obs.mk.injEq, What.minted.injEq, Option.some.injEq, and_true] at this
    obtain ⟨⟨rfl, rfl, rfl, rfl, rfl⟩, -⟩ := this
    refine ⟨hm, ?_⟩
    rcases hs with ⟨known, rfl, rfl, rfl, -⟩ | ⟨cr, p, y, b', rfl, hy, rfl, hc, -, -⟩
    · exact Or.inl ⟨rfl, i, rfl⟩
    · obtain ⟨a, ha, hcr⟩ := hb.created batch k info hk hi
      rw [hc] at ha
      cases ha
      exact Or.inr ⟨rfl, cr, p, i, y, info.supply, rfl, hy, hcr⟩
  | single => have := List.append_cancel_left h; simp at this
  | transfer => have := List.append_cancel_left h; simp at this
  | list => have := List.append_cancel_left h; simp at this
  | unlist => have := List.append_cancel_left h; simp at this
  | create => have := List.append_cancel_left h; simp at this
  | listBatch => have := List.append_cancel_left h; simp at this
  | endFiat => have := List.append_cancel_left h; simp at this
  | endEth => have := List.append_cancel_left h; simp at this

/-! ## C60 -/

theorem sum_le_of_each {l : List Nat} {m : Nat} (h : ∀ x ∈ l, x ≤ m) : l.sum ≤ l.length * m := by
  induction l with
  | nil => simp
  | cons a t ih =>
    have h1 := h a (by simp)
    have h2 := ih (fun x hx => h x (by simp [hx]))
    rw [List.sum_cons, List.length_cons, Nat.add_mul]
    omega

/-- C60: every stored royalty list has each rate and the sum of the rates at most one million parts per million (although the code sums
with a wrapping `u32`, at most 16 rates are stored). -/
theorem C60_royalties_bounded (keccak : List UInt8 → Hash) (steps : List Step) (k : Nat) (info : Info)
    (h : (run keccak steps).infos k = some info) :
    (∀ r ∈ info.royalties, r.ppm.val ≤ 1000000) ∧ (info.royalties.map (·.ppm.val)).sum ≤ 1000000 := by
  have key : ∀ k info, (run keccak steps).infos k = some info → RoyaltiesOk info.royalties := by
    refine run_invariant (P := fun s => ∀ k info, s.infos k = some info → RoyaltiesOk info.royalties) keccak (by simp [init]) ?_ steps
    intro s x s' h v k info hk
    cases v with
    | single r o y t1 auth hid href hroy =>
      simp only [singleState, note] at hk
      by_cases e : k = s.nextInfo
      · subst e; simp only [upd_same, Option.some.injEq] at hk; subst hk; exact hroy
      · rw [upd_ne _ _ e] at hk; exact h k info hk
    | create cr p n y t1 b hx h0 h1 hid hroy hs =>
      simp only [createState, note] at hk
      by_cases e : k = s.nextInfo
      · subst e; simp only [upd_same, Option.some.injEq] at hk; subst hk; exact hroy
      · rw [upd_ne _ _ e] at hk; exact h k info hk
    | _ => exact h k info hk
  obtain ⟨h1, h2, h3⟩ := key k info h
  refine ⟨h1, ?_⟩
  have hs : (info.royalties.map (·.ppm.val)).sum ≤ info.royalties.length * million := by
    have := sum_le_of_each (l := info.royalties.map (·.ppm.val)) (m := million) (by
      intro x hx
      obtain ⟨r, hr, rfl⟩ := List.mem_map.mp hx
      exact h1 r hr)
    simpa using this
  have hb : info.royalties.length * million ≤ 16 * million := Nat.mul_le_mul_right _ h3
  rw [Nat.mod_eq_of_lt (by unfold pow32; unfold million at *; omega)] at h2
  exact h2

/-! ## C73 -/

/-- C73: an NFT, once minted, is never removed and keeps its external reference and record for ever; and the record of an
NFT or batch (royalties, authority, supply, creator) never changes. -/
theorem C73_provenance_permanent (keccak : List UInt8 → Hash) (before after : List Step) :
    (∀ id nft, (run keccak before).nfts id = some nft → ∃ nft', (run keccak (before ++ after)).nfts id = some nft' ∧
      nft'.extRef = nft.extRef ∧ nft'.infoId = nft.infoId) ∧
    (∀ k info, (run keccak before).infos k = some info → (run keccak (before ++ after)).infos k = some info) ∧
    (∀ b k, (run keccak before).batchInfo b = some k → (run keccak (before ++ after)).batchInfo b = some k) := by
  induction after using List.reverseRecOn with
  | nil => simpa using fun id nft h => ⟨nft, h, rfl, rfl⟩
  | append_singleton l x ih =>
    rw [← List.append_assoc, run_snoc]
    have v := run_view keccak (before ++ l) x
    have hb := run_batch keccak (before ++ l)
    generalize run keccak (before ++ l) = s at *
    generalize step keccak s x = s' at v
    obtain ⟨i1, i2, i3⟩ := ih
    have put : ∀ (id : U256) (n : Nft), (∀ nft, s.nfts id = some nft → n.extRef = nft.extRef ∧ n.infoId = nft.infoId) →
        ∀ i nft, (run keccak before).nfts i = some nft → ∃ nft', upd s.nfts id (some n) i = some nft' ∧ nft'.extRef = nft.extRef ∧ nft'.infoId = nft.infoId := by
      intro id n hn i nft hi
      obtain ⟨m, h1, h2, h3⟩ := i1 i nft hi
      by_cases e : i = id
      · subst e
        obtain ⟨g1, g2⟩ := hn m h1
        exact ⟨n, by simp, g1.trans h2, g2.trans h3⟩
      · exact ⟨m, by rw [upd_ne _ _ e]; exact h1, h2, h3⟩
    have info : ∀ (i : Info) k j, (run keccak before).infos k = some j → upd s.infos s.nextInfo (some i) k = some j := by
      intro i k j hk
      have h1 := i2 k j hk
      have := hb.infoLt k j h1
      rw [upd_ne _ _ (by omega)]
      exact h1
    cases v with
    | same => exact ⟨i1, i2, i3⟩
    | single r o y t1 auth hid => exact ⟨put _ ⟨s.nextInfo, r, 0, o, false⟩ (fun nft h => by rw [hid] at h; cases h), info _, i3⟩
    | batchMint batch i r o m auth k info0 hid =>
      exact ⟨put _ ⟨(s.batchInfo batch).getD 0, r, 0, o, false⟩ (fun nft h => by rw [hid] at h; cases h), i2, i3⟩
    | list id m nft auth h0 => exact ⟨put id (bump nft) (fun n h => by rw [h0] at h; cases h; exact ⟨rfl, rfl⟩), i2, i3⟩
    | transfer id new m nft auth h0 =>
      exact ⟨put id { nft with owner := new, nonce := nft.nonce + 1 } (fun n h => by rw [h0] at h; cases h; exact ⟨rfl, rfl⟩), i2, i3⟩
    | unlist id m nft auth h0 => exact ⟨put id (bump nft) (fun n h => by rw [h0] at h; cases h; exact ⟨rfl, rfl⟩), i2, i3⟩
    | create cr p n y t1 b hx h0 h1 hid =>
      refine ⟨i1, info _, ?_⟩
      intro c k hk
      simp only [createState, note]
      rw [upd_ne]
      · exact i3 c k hk
      · intro e; subst e; have := i3 _ k hk; rw [hid] at this; cases this
    | listBatch => exact ⟨i1, i2, i3⟩
    | endFiat => exact ⟨i1, i2, i3⟩
    | endEth => exact ⟨i1, i2, i3⟩

/-! ## Non-vacuity -/

/-- Accepts the signature made of the bytes 7. -/
def exCrypto : Crypto := { verifySr := fun _ raw _ => raw == Vector.replicate 64 7, recoverEcdsa := fun _ _ => none }

/-- A hash good enough for examples: the last 32 bytes. -/
def exKeccak (l : List UInt8) : Hash := Vector.ofFn fun i => (l.reverse[i.val]?).getD 0 + l.head?.getD 0

def exT1 : Addr := Vector.replicate 20 5
def exRef (b : UInt8) : SVec UInt8 := ⟨[b], by show 1 < pow32; decide⟩
def exRoy : SVec Royalty := ⟨[⟨exT1, 30000⟩], by decide⟩
def exDst : Hash := Vector.replicate 32 8

def exId : U256 := singleId exKeccak exT1 0
def exBatch : U256 := batchIdOf exKeccak 1

/-- Mint, list and transfer an NFT; create, list and mint from a batch of one; then everything is tried again. -/
def exSteps : List Step :=
  [.signedMintSingle exCrypto (exAcct 1) exProof (exRef 1) exRoy exT1,
   .signedList exCrypto (exAcct 1) exProof exId .fiat,
   .transferFiat exCrypto (exAcct 1) exProof exId exDst,
   .createBatch exCrypto (exAcct 1) exProof 1 exRoy exT1,
   .listBatch exCrypto (exAcct 1) exProof exBatch .fiat,
   .signedMintBatch exCrypto (exAcct 1) exProof exBatch 0 (exAcct 3) (exRef 2)]

def exReplay : List Step :=
  [.signedMintSingle exCrypto (exAcct 1) exProof (exRef 1) exRoy exT1,
   .signedMintBatch exCrypto (exAcct 1) exProof exBatch 0 (exAcct 3) (exRef 2),
   .signedMintBatch exCrypto (exAcct 1) exProof exBatch 1 (exAcct 3) (exRef 3),
   .transferFiat exCrypto (exAcct 1) exProof exId exDst]

example : (run exKeccak exSteps).log.map (·.what) =
    [.minted exId [1] (exAcct 1) none .unknown, .listed exId .fiat, .transferred exId (exAcct 1) exDst .fiat 1, .batchCreated exBatch 1 (exAcct 1),
     .batchListed exBatch .fiat, .minted (batchNftId exKeccak exBatch 0) [2] (exAcct 3) (some exBatch) .fiat] := by decide +kernel

example : (run exKeccak (exSteps ++ exReplay)).log.length = 6 ∧
    ((run exKeccak exSteps).nfts exId).map (fun n => (n.owner, n.nonce)) = some (exDst, 2) ∧
    ((run exKeccak exSteps).log.filterMap (createdAs exBatch)) = [(1, exAcct 1)] := by decide +kernel

/-- An Ethereum sale: the event moves the NFT only with the right operation id. -/
example : ((run exKeccak [.mintSingle (exAcct 1) [9] [] exT1, .list (exAcct 1) exId .ethereum, .ethTransfer true exId exDst 0,
    .ethTransfer true exId exDst 1]).log.map (·.what)).drop 2 = [.transferred exId (exAcct 1) exDst .ethereum 1] := by decide +kernel

end Verif.Nft
