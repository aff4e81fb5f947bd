import Verif.Model.Nft
import Mathlib.Data.List.Induction

namespace Verif.Nft
open Verif.ProxyCalls

abbrev Auth := Option (Call × List UInt8)

/-- After a single mint. -/
def singleState (id : U256) (extRef : List UInt8) (owner : Acct) (roy : List Royalty) (t1 : Addr) (auth : Auth) (s : State) : State :=
  note (.minted id extRef owner none .unknown) auth
    { s with
      nextUnique := s.nextUnique + 1
      nextInfo := s.nextInfo + 1
      infos := upd s.infos s.nextInfo (some ⟨none, roy, 1, t1, none⟩)
      nfts := upd s.nfts id (some ⟨s.nextInfo, extRef, 0, owner, false⟩)
      refs := upd s.refs extRef true }

/-- After a batch mint. -/
def batchMintState (id batch : U256) (extRef : List UInt8) (owner : Acct) (m : Market) (auth : Auth) (s : State) : State :=
  note (.minted id extRef owner (some batch) m) auth
    { s with
      nfts := upd s.nfts id (some ⟨(s.batchInfo batch).getD 0, extRef, 0, owner, false⟩)
      refs := upd s.refs extRef true
      batches := upd s.batches batch (s.batches batch ++ [id]) }

/-- After a transfer. -/
def transferState (id : U256) (old new : Acct) (m : Market) (n : U64) (nft : Nft) (auth : Auth) (s : State) : State :=
  note (.transferred id old new m n) auth
    { s with listed := upd s.listed id none, nfts := upd s.nfts id (some { nft with owner := new, nonce := nft.nonce + 1 }) }

/-- After a cancelled listing. -/
def unlistState (id : U256) (m : Market) (n : U64) (nft : Nft) (auth : Auth) (s : State) : State :=
  note (.unlisted id m n) auth { s with listed := upd s.listed id none, nfts := upd s.nfts id (some (bump nft)) }

/-- After a listing. -/
def listState (id : U256) (m : Market) (nft : Nft) (auth : Auth) (s : State) : State :=
  note (.listed id m) auth { s with listed := upd s.listed id (some m), nfts := upd s.nfts id (some (bump nft)) }

/-- After a batch was created. -/
def createState (id : U256) (supply : U64) (roy : List Royalty) (t1 : Addr) (creator : Acct) (auth : Auth) (s : State) : State :=
  note (.batchCreated id supply creator) auth
    { s with
      nextUnique := s.nextUnique + 1
      nextInfo := s.nextInfo + 1
      infos := upd s.infos s.nextInfo (some ⟨some id, roy, supply, t1, some creator⟩)
      batchInfo := upd s.batchInfo id (some s.nextInfo)
      batchNonce := upd s.batchNonce creator (s.batchNonce creator + 1) }

/-- After a batch was listed. -/
def listBatchState (batch : U256) (m : Market) (creator : Acct) (auth : Auth) (s : State) : State :=
  note (.batchListed batch m) auth
    { s with batchListed := upd s.batchListed batch (some m), batchNonce := upd s.batchNonce creator (s.batchNonce creator + 1) }

/-- After a batch sale ended; `who` is the creator for a fiat sale. -/
def endBatchState (batch : U256) (m : Market) (who : Option Acct) (auth : Auth) (s : State) : State :=
  note (.batchEnded batch m) auth
    { s with
      batchListed := upd s.batchListed batch none
      batchNonce := match who with
        | some a => upd s.batchNonce a (s.batchNonce a + 1)
        | none => s.batchNonce }

/-- The authorisation of a call: the bytes are its payload now, and its proof's signature over them verifies. -/
def Signed (cr : Crypto) (s : State) (c : Call) (p : Proof) (b : List UInt8) : Prop :=
  c.proof? = some p ∧ payload (view s) c = some b ∧ verifySignature cr p b = true

/-- Royalties as checked. -/
def RoyaltiesOk (r : List Royalty) : Prop :=
  (∀ x ∈ r, x.ppm.val ≤ million) ∧ (r.map (·.ppm.val)).sum % pow32 ≤ million ∧ r.length ≤ maxRoyalties

/-- What one step can do. -/
inductive View (keccak : List UInt8 → Hash) (s : State) (x : Step) : State → Prop
  | same : View keccak s x s
  | single (extRef : List UInt8) (owner : Acct) (roy : List Royalty) (t1 : Addr) (auth : Auth)
      (hid : s.nfts (singleId keccak t1 s.nextUnique) = none) (href : s.refs extRef = false) (hroy : RoyaltiesOk roy)
      (hs : x = .mintSingle owner extRef roy t1 ∧ auth = none ∨
        ∃ cr p r y b, x = .signedMintSingle cr p.signer p r y t1 ∧ r.val = extRef ∧ y.val = roy ∧ p.signer = owner ∧
          auth = some (.mintSingleNft p r y t1, b) ∧ Signed cr s (.mintSingleNft p r y t1) p b) :
      View keccak s x (singleState (singleId keccak t1 s.nextUnique) extRef owner roy t1 auth s)
  | batchMint (batch : U256) (index : U64) (extRef : List UInt8) (owner : Acct) (m : Market) (auth : Auth) (k : Nat) (info : Info)
      (hid : s.nfts (batchNftId keccak batch index) = none) (href : s.refs extRef = false)
      (hk : s.batchInfo batch = some k) (hi : s.infos k = some info) (hlen : (s.batches batch).length < info.supply.val)
      (hm : s.batchListed batch = some m)
      (hs : (∃ known, x = .ethMint known batch owner index extRef ∧ known = true ∧ m = .ethereum ∧ auth = none) ∨
        ∃ cr p r b, x = .signedMintBatch cr p.signer p batch index owner r ∧ r.val = extRef ∧ m = .fiat ∧ info.creator = some p.signer ∧
          auth = some (.mintBatchNft p batch index owner r, b) ∧ Signed cr s (.mintBatchNft p batch index owner r) p b) :
      View keccak s x (batchMintState (batchNftId keccak batch index) batch extRef owner m auth s)
  | list (id : U256) (m : Market) (nft : Nft) (auth : Auth) (h0 : s.nfts id = some nft) (hm : m ≠ .unknown) (hl : s.listed id = none)
      (hlock : nft.isLocked = false)
      (hs : x = .list nft.owner id m ∧ auth = none ∨
        ∃ cr p b, x = .signedList cr p.signer p id m ∧ p.signer = nft.owner ∧ auth = some (.listNft p id m.byte, b) ∧
          Signed cr s (.listNft p id m.byte) p b) :
      View keccak s x (listState id m nft auth s)
  | transfer (id : U256) (new : Acct) (m : Market) (nft : Nft) (auth : Auth) (h0 : s.nfts id = some nft) (hl : s.listed id = some m)
      (hs : (∃ known, x = .ethTransfer known id new nft.nonce ∧ known = true ∧ m = .ethereum ∧ auth = none) ∨
        ∃ cr p b, x = .transferFiat cr p.signer p id new ∧ p.signer = nft.owner ∧ m = .fiat ∧ auth = some (.transferFiatNft p id new, b) ∧
          Signed cr s (.transferFiatNft p id new) p b) :
      View keccak s x (transferState id nft.owner new m nft.nonce nft auth s)
  | unlist (id : U256) (m : Market) (nft : Nft) (auth : Auth) (h0 : s.nfts id = some nft) (hl : s.listed id = some m)
      (hs : (∃ known, x = .ethCancel known id nft.nonce ∧ known = true ∧ m = .ethereum ∧ auth = none) ∨
        ∃ cr p b, x = .cancelFiat cr p.signer p id ∧ p.signer = nft.owner ∧ m = .fiat ∧ auth = some (.cancelListNft p id, b) ∧
          Signed cr s (.cancelListNft p id) p b) :
      View keccak s x (unlistState id m nft.nonce nft auth s)
  | create (cr : Crypto) (p : Proof) (supply : U64) (y : SVec Royalty) (t1 : Addr) (b : List UInt8)
      (hx : x = .createBatch cr p.signer p supply y t1) (h0 : supply.val ≠ 0) (h1 : supply.val ≤ batchBound)
      (hid : s.batchInfo (batchIdOf keccak s.nextUnique) = none) (hroy : RoyaltiesOk y.val)
      (hs : Signed cr s (.createBatch p supply y t1) p b) :
      View keccak s x (createState (batchIdOf keccak s.nextUnique) supply y.val t1 p.signer (some (.createBatch p supply y t1, b)) s)
  | listBatch (cr : Crypto) (p : Proof) (batch : U256) (m : Market) (b : List UInt8) (k : Nat) (info : Info)
      (hx : x = .listBatch cr p.signer p batch m) (hm : m ≠ .unknown) (hk : s.batchInfo batch = some k) (hi : s.infos k = some info)
      (hc : info.creator = some p.signer) (hl : s.batchListed batch = none) (hlen : (s.batches batch).length < info.supply.val)
      (hs : Signed cr s (.listBatch p batch m.byte) p b) :
      View keccak s x (listBatchState batch m p.signer (some (.listBatch p batch m.byte, b)) s)
  | endFiat (cr : Crypto) (p : Proof) (batch : U256) (b : List UInt8) (k : Nat) (info : Info)
      (hx : x = .endBatch cr p.signer p batch) (hk : s.batchInfo batch = some k) (hi : s.infos k = some info)
      (hc : info.creator = some p.signer) (hl : s.batchListed batch = some .fiat) (hs : Signed cr s (.endBatchSale p batch) p b) :
      View keccak s x (endBatchState batch .fiat (some p.signer) (some (.endBatchSale p batch, b)) s)
  | endEth (known : Bool) (batch : U256) (hx : x = .ethEnd known batch) (hk : known = true) (hl : s.batchListed batch = some .ethereum) :
      View keccak s x (endBatchState batch .ethereum none none s)

theorem authorise_some {cr : Crypto} {s : State} {c : Call} {p : Proof} {b : List UInt8} (hp : c.proof? = some p)
    (h : authorise cr s c = some b) : Signed cr s c p b := by
  unfold authorise at h
  rw [hp] at h
  cases hm : payload (view s) c with
  | none => rw [hm] at h; cases h
  | some m =>
    rw [hm] at h
    dsimp only at h
    by_cases hv : verifySignature cr p m = true
    · rw [if_pos hv] at h
      cases h
      exact ⟨hp, hm, hv⟩
    · rw [if_neg hv] at h; cases h

theorem validateRoyalties_none {r : List Royalty} (h : validateRoyalties r = none) :
    (∀ x ∈ r, x.ppm.val ≤ million) ∧ (r.map (·.ppm.val)).sum % pow32 ≤ million := by
  unfold validateRoyalties at h
  by_cases h1 : r.any (fun x => !(decide (x.ppm.val ≤ million))) = true
  · rw [if_pos h1] at h; cases h
  · rw [if_neg h1] at h
    by_cases h2 : (r.map (·.ppm.val)).sum % pow32 ≤ million
    · refine ⟨?_, h2⟩
      intro x hx
      by_contra hc
      exact h1 (List.any_eq_true.mpr ⟨x, hx, by simpa using hc⟩)
    · rw [if_neg h2] at h; cases h

theorem validateRef_none {s : State} {r : List UInt8} (h : validateRef s r = none) : s.refs r = false := by
  unfold validateRef at h
  split at h
  · cases h
  · split at h
    · cases h
    · rename_i h2; simpa using h2

theorem validateMintSingle_none {s : State} {r : List UInt8} {y : List Royalty} {t1 : Addr} (h : validateMintSingle s r y t1 = none) :
    s.refs r = false ∧ (∀ x ∈ y, x.ppm.val ≤ million) ∧ (y.map (·.ppm.val)).sum % pow32 ≤ million := by
  unfold validateMintSingle at h
  split at h
  · cases h
  · split at h
    · cases h
    · cases hr : validateRef s r with
      | some e => rw [hr] at h; cases h
      | none => rw [hr] at h; exact ⟨validateRef_none hr, validateRoyalties_none h⟩

theorem mintSingleCore_ok {keccak : List UInt8 → Hash} {owner : Acct} {r : List UInt8} {y : List Royalty} {t1 : Addr} {auth : Auth}
    {s : State} (h : (mintSingleCore keccak owner r y t1 auth s).2 = none) :
    s.nfts (singleId keccak t1 s.nextUnique) = none ∧ y.length ≤ maxRoyalties ∧
    (mintSingleCore keccak owner r y t1 auth s).1 = singleState (singleId keccak t1 s.nextUnique) r owner y t1 auth s := by
  unfold mintSingleCore at h ⊢
  dsimp only at h ⊢
  by_cases h1 : (s.nfts (singleId keccak t1 s.nextUnique)).isSome = true
  · rw [if_pos h1] at h; cases h
  · rw [if_neg h1] at h ⊢
    by_cases h2 : maxRoyalties < y.length
    · rw [if_pos h2] at h; cases h
    · rw [if_neg h2]
      exact ⟨by simpa using h1, by omega, rfl⟩

theorem validateOpen_none {s : State} {a : Acct} {id : U256} {m : Market} (h : validateOpen s a id m = none) :
    ∃ nft, s.nfts id = some nft ∧ m ≠ .unknown ∧ s.listed id = none ∧ nft.owner = a ∧ nft.isLocked = false := by
  unfold validateOpen at h
  by_cases h1 : m = .unknown
  · rw [if_pos h1] at h; cases h
  · rw [if_neg h1] at h
    cases hn : s.nfts id with
    | none => rw [hn] at h; cases h
    | some nft =>
      rw [hn] at h
      dsimp only at h
      split at h
      · cases h
      · split at h
        · cases h
        · split at h
          · cases h
          · rename_i h2 h3 h4
            exact ⟨nft, rfl, h1, by simpa using h2, by simpa using h3, by simpa using h4⟩

theorem openForSale_eq {id : U256} {m : Market} {auth : Auth} {s : State} {nft : Nft} (h : s.nfts id = some nft) :
    openForSale id m auth s = listState id m nft auth s := by
  simp [openForSale, listState, mutateNft, note, h]

theorem validateFiat_ok {s : State} {a : Acct} {id : U256} {nft : Nft} (h : validateFiat s a id = .ok nft) :
    s.nfts id = some nft ∧ s.listed id = some .fiat ∧ nft.owner = a := by
  unfold validateFiat at h
  split at h
  · cases h
  · split at h
    · cases h
    · rename_i h1 h2
      cases hn : s.nfts id with
      | none => rw [hn] at h; cases h
      | some n =>
        rw [hn] at h
        dsimp only at h
        split at h
        · cases h
        · split at h
          · cases h
          · rename_i h3 h4
            cases h
            refine ⟨rfl, ?_, by simpa using h3⟩
            cases hl : s.listed id with
            | none => rw [hl] at h1; simp at h1
            | some m => rw [hl] at h2; simp at h2; rw [h2]

theorem transferNft_some {id : U256} {new : Acct} {s : State} {m : Market} {nft : Nft} (hl : s.listed id = some m) (hn : s.nfts id = some nft) :
    transferNft id new s =
      ({ s with listed := upd s.listed id none, nfts := upd s.nfts id (some { nft with owner := new, nonce := nft.nonce + 1 }) }, none) := by
  simp [transferNft, hl, mutateNft, hn]

theorem unlistNft_some {id : U256} {s : State} {m : Market} {nft : Nft} (hl : s.listed id = some m) (hn : s.nfts id = some nft) :
    unlistNft id s = ({ s with listed := upd s.listed id none, nfts := upd s.nfts id (some (bump nft)) }, none) := by
  simp [unlistNft, hl, mutateNft, hn]

theorem getD_ne_unknown {o : Option Market} {m : Market} (hm : m ≠ .unknown) (h : ¬ (o.getD .unknown ≠ m)) : o = some m := by
  cases o with
  | none => simp at h; exact absurd h.symm hm
  | some k => simp at h; rw [h]

theorem validateMintBatch_ok {s : State} {batch : U256} {r : List UInt8} {info : Info} (h : validateMintBatch s batch r = .ok info) :
    ∃ k m, s.batchInfo batch = some k ∧ s.infos k = some info ∧ s.batchListed batch = some m ∧
      (s.batches batch).length < info.supply.val ∧ s.refs r = false := by
  unfold validateMintBatch at h
  split at h
  · cases h
  · split at h
    · cases h
    · split at h
      · cases h
      · rename_i h1 h2 h3
        unfold infoForBatch at h
        cases hk : s.batchInfo batch with
        | none => rw [hk] at h2; simp at h2
        | some k =>
          cases hl : s.batchListed batch with
          | none => rw [hl] at h3; simp at h3
          | some m =>
            rw [hk, Option.getD_some] at h
            cases hi : s.infos k with
            | none => rw [hi] at h; cases h
            | some i =>
              rw [hi] at h
              dsimp only at h
              split at h
              · cases h
              · cases hr : validateRef s r with
                | some e => rw [hr] at h; cases h
                | none =>
                  rw [hr] at h
                  cases h
                  exact ⟨k, m, rfl, hi, rfl, by omega, validateRef_none hr⟩

/-- Supplies are within the batch bound. -/
def SupplyInv (s : State) : Prop := ∀ k info, s.infos k = some info → info.supply.val ≤ batchBound

theorem mintBatchNft_cases {keccak : List UInt8 → Hash} {batch : U256} {owner : Acct} {index : U64} {r : List UInt8} {m : Market}
    {auth : Auth} {s : State} (hinv : SupplyInv s) :
    ((mintBatchNft keccak batch owner index r m auth s).1 = s ∧ (mintBatchNft keccak batch owner index r m auth s).2 ≠ none) ∨
    ∃ k info m', s.batchInfo batch = some k ∧ s.infos k = some info ∧ s.batchListed batch = some m' ∧
      (s.batches batch).length < info.supply.val ∧ s.refs r = false ∧ s.nfts (batchNftId keccak batch index) = none ∧
      mintBatchNft keccak batch owner index r m auth s =
        (batchMintState (batchNftId keccak batch index) batch r owner m auth s, none) ∧ validateMintBatch s batch r = .ok info := by
  unfold mintBatchNft
  cases hv : validateMintBatch s batch r with
  | error e => left; simp
  | ok info =>
    dsimp only
    obtain ⟨k, m', h1, h2, h3, h4, h5⟩ := validateMintBatch_ok hv
    by_cases h6 : (s.nfts (batchNftId keccak batch index)).isSome = true
    · left; rw [if_pos h6]; simp
    · right
      rw [if_neg h6]
      have := hinv k info h2
      rw [if_neg (by omega)]
      exact ⟨k, info, m', h1, h2, h3, h4, h5, by simpa using h6, rfl, rfl⟩

theorem validateEndBatch_none {s : State} {batch : U256} (h : validateEndBatch s batch = none) :
    ∃ k m, s.batchInfo batch = some k ∧ s.batchListed batch = some m := by
  unfold validateEndBatch at h
  split at h
  · cases h
  · split at h
    · cases h
    · split at h
      · cases h
      · rename_i h1 h2 h3
        exact ⟨_, _, (Option.some_get (by simpa [Option.isSome_iff_ne_none] using h2)).symm,
          (Option.some_get (by simpa [Option.isSome_iff_ne_none] using h3)).symm⟩

theorem trans_view {keccak : List UInt8 → Hash} {s : State} {x : Step} {r : Res} (h : r.2 = none → View keccak s x r.1) :
    View keccak s x (transactional s r) := by
  unfold transactional
  cases hr : r.2 with
  | some e => simp; exact .same
  | none => simp; exact h hr

theorem step_view (keccak : List UInt8 → Hash) (s : State) (x : Step) (hinv : SupplyInv s) : View keccak s x (step keccak s x) := by
  cases x with
  | mintSingle a r y t1 =>
    refine trans_view fun h => ?_
    unfold mintSingle at h ⊢
    cases hv : validateMintSingle s r y t1 with
    | some e => rw [hv] at h; cases h
    | none =>
      rw [hv] at h
      obtain ⟨v1, v2, v3⟩ := validateMintSingle_none hv
      obtain ⟨c1, c2, c3⟩ := mintSingleCore_ok h
      dsimp only
      rw [c3]
      exact .single r a y t1 none c1 v1 ⟨v2, v3, c2⟩ (Or.inl ⟨rfl, rfl⟩)
  | signedMintSingle cr a p r y t1 =>
    refine trans_view fun h => ?_
    unfold signedMintSingle at h ⊢
    by_cases ha : a ≠ p.signer
    · rw [if_pos ha] at h; cases h
    · rw [if_neg ha] at h ⊢
      have ha : a = p.signer := by simpa using ha
      subst ha
      cases hv : validateMintSingle s r.val y.val t1 with
      | some e => rw [hv] at h; cases h
      | none =>
        rw [hv] at h
        dsimp only at h ⊢
        cases hq : authorise cr s (.mintSingleNft p r y t1) with
        | none => rw [hq] at h; cases h
        | some b =>
          rw [hq] at h
          dsimp only at h ⊢
          obtain ⟨v1, v2, v3⟩ := validateMintSingle_none hv
          obtain ⟨c1, c2, c3⟩ := mintSingleCore_ok h
          rw [c3]
          exact .single r.val p.signer y.val t1 _ c1 v1 ⟨v2, v3, c2⟩
            (Or.inr ⟨cr, p, r, y, b, rfl, rfl, rfl, rfl, rfl, authorise_some rfl hq⟩)
  | list a id m =>
    refine trans_view fun h => ?_
    unfold Nft.list at h ⊢
    cases hv : validateOpen s a id m with
    | some e => rw [hv] at h; cases h
    | none =>
      obtain ⟨nft, h1, h2, h3, h4, h5⟩ := validateOpen_none hv
      dsimp only
      rw [openForSale_eq h1]
      subst h4
      exact .list id m nft none h1 h2 h3 h5 (Or.inl ⟨rfl, rfl⟩)
  | signedList cr a p id m =>
    refine trans_view fun h => ?_
    unfold signedList at h ⊢
    by_cases ha : a ≠ p.signer
    · rw [if_pos ha] at h; cases h
    · rw [if_neg ha] at h ⊢
      have ha : a = p.signer := by simpa using ha
      subst ha
      cases hv : validateOpen s p.signer id m with
      | some e => rw [hv] at h; cases h
      | none =>
        rw [hv] at h
        dsimp only at h ⊢
        cases hq : authorise cr s (.listNft p id m.byte) with
        | none => rw [hq] at h; cases h
        | some b =>
          obtain ⟨nft, h1, h2, h3, h4, h5⟩ := validateOpen_none hv
          dsimp only
          rw [openForSale_eq h1]
          exact .list id m nft _ h1 h2 h3 h5 (Or.inr ⟨cr, p, b, rfl, h4.symm, rfl, authorise_some rfl hq⟩)
  | transferFiat cr a p id d =>
    refine trans_view fun h => ?_
    unfold transferFiat at h ⊢
    by_cases ha : a ≠ p.signer
    · rw [if_pos ha] at h; cases h
    · rw [if_neg ha] at h ⊢
      have ha : a = p.signer := by simpa using ha
      subst ha
      by_cases hd : d = Vector.replicate 32 0
      · rw [if_pos hd] at h; cases h
      · rw [if_neg hd] at h ⊢
        cases hv : validateFiat s p.signer id with
        | error e => rw [hv] at h; cases h
        | ok nft =>
          rw [hv] at h
          dsimp only at h ⊢
          cases hq : authorise cr s (.transferFiatNft p id d) with
          | none => rw [hq] at h; cases h
          | some b =>
            obtain ⟨h1, h2, h3⟩ := validateFiat_ok hv
            dsimp only
            rw [transferNft_some h2 h1, h2, ← h3]
            exact .transfer id d .fiat nft _ h1 h2 (Or.inr ⟨cr, p, b, by rw [h3], h3.symm, rfl, rfl, authorise_some rfl hq⟩)
  | cancelFiat cr a p id =>
    refine trans_view fun h => ?_
    unfold cancelFiat at h ⊢
    by_cases ha : a ≠ p.signer
    · rw [if_pos ha] at h; cases h
    · rw [if_neg ha] at h ⊢
      have ha : a = p.signer := by simpa using ha
      subst ha
      cases hv : validateFiat s p.signer id with
      | error e => rw [hv] at h; cases h
      | ok nft =>
        rw [hv] at h
        dsimp only at h ⊢
        cases hq : authorise cr s (.cancelListNft p id) with
        | none => rw [hq] at h; cases h
        | some b =>
          obtain ⟨h1, h2, h3⟩ := validateFiat_ok hv
          dsimp only
          rw [unlistNft_some h2 h1, h2]
          exact .unlist id .fiat nft _ h1 h2 (Or.inr ⟨cr, p, b, rfl, h3.symm, rfl, rfl, authorise_some rfl hq⟩)
  | createBatch cr a p n y t1 =>
    refine trans_view fun h => ?_
    unfold createBatch at h ⊢
    by_cases ha : a ≠ p.signer
    · rw [if_pos ha] at h; cases h
    · rw [if_neg ha] at h ⊢
      have ha : a = p.signer := by simpa using ha
      subst ha
      by_cases h1 : t1 = Vector.replicate 20 0
      · rw [if_pos h1] at h; cases h
      · rw [if_neg h1] at h ⊢
        by_cases h2 : n.val = 0
        · rw [if_pos h2] at h; cases h
        · rw [if_neg h2] at h ⊢
          by_cases h3 : batchBound < n.val
          · rw [if_pos h3] at h; cases h
          · rw [if_neg h3] at h ⊢
            cases hv : validateRoyalties y.val with
            | some e => rw [hv] at h; cases h
            | none =>
              rw [hv] at h
              dsimp only at h ⊢
              cases hq : authorise cr s (.createBatch p n y t1) with
              | none => rw [hq] at h; cases h
              | some b =>
                rw [hq] at h
                dsimp only at h ⊢
                by_cases h4 : (s.batchInfo (batchIdOf keccak s.nextUnique)).isSome = true
                · rw [if_pos h4] at h; cases h
                · rw [if_neg h4] at h ⊢
                  by_cases h5 : maxRoyalties < y.val.length
                  · rw [if_pos h5] at h; cases h
                  · rw [if_neg h5]
                    obtain ⟨v1, v2⟩ := validateRoyalties_none hv
                    exact .create cr p n y t1 b rfl h2 (by omega) (by simpa using h4) ⟨v1, v2, by omega⟩ (authorise_some rfl hq)
  | signedMintBatch cr a p batch i o r =>
    refine trans_view fun h => ?_
    unfold signedMintBatch at h ⊢
    by_cases ha : a ≠ p.signer
    · rw [if_pos ha] at h; cases h
    · rw [if_neg ha] at h ⊢
      have ha : a = p.signer := by simpa using ha
      subst ha
      by_cases h1 : refBound < r.val.length
      · rw [if_pos h1] at h; cases h
      · rw [if_neg h1] at h ⊢
        cases hv : validateMintBatch s batch r.val with
        | error e => rw [hv] at h; cases h
        | ok info =>
          rw [hv] at h
          dsimp only at h ⊢
          by_cases h2 : (s.batchListed batch).getD .unknown ≠ .fiat
          · rw [if_pos h2] at h; cases h
          · rw [if_neg h2] at h ⊢
            by_cases h3 : info.creator ≠ some p.signer
            · rw [if_pos h3] at h; cases h
            · rw [if_neg h3] at h ⊢
              cases hq : authorise cr s (.mintBatchNft p batch i o r) with
              | none => rw [hq] at h; cases h
              | some b =>
                rw [hq] at h
                dsimp only at h ⊢
                rcases mintBatchNft_cases (keccak := keccak) (batch := batch) (owner := o) (index := i) (r := r.val) (m := .fiat)
                  (auth := some (.mintBatchNft p batch i o r, b)) hinv with ⟨-, hne⟩ | ⟨k, info', m', g1, g2, g3, g4, g5, g6, g7, g8⟩
                · exact absurd h hne
                · rw [g7]
                  have hm : s.batchListed batch = some .fiat := getD_ne_unknown (by simp) h2
                  rw [hv] at g8
                  cases g8
                  exact .batchMint batch i r.val o .fiat _ k info g6 g5 g1 g2 g4 hm
                    (Or.inr ⟨cr, p, r, b, rfl, rfl, rfl, by simpa using h3, rfl, authorise_some rfl hq⟩)
  | listBatch cr a p batch m =>
    refine trans_view fun h => ?_
    unfold Nft.listBatch at h ⊢
    by_cases ha : a ≠ p.signer
    · rw [if_pos ha] at h; cases h
    · rw [if_neg ha] at h ⊢
      have ha : a = p.signer := by simpa using ha
      subst ha
      by_cases h1 : batch = 0
      · rw [if_pos h1] at h; cases h
      · rw [if_neg h1] at h ⊢
        by_cases h2 : (s.batchInfo batch).isNone = true
        · rw [if_pos h2] at h; cases h
        · rw [if_neg h2] at h ⊢
          by_cases h3 : m = .unknown
          · rw [if_pos h3] at h; cases h
          · rw [if_neg h3] at h ⊢
            unfold infoForBatch at h ⊢
            cases hk : s.batchInfo batch with
            | none => rw [hk] at h2; simp at h2
            | some k =>
              rw [hk, Option.getD_some] at h
              rw [Option.getD_some]
              cases hi : s.infos k with
              | none => rw [hi] at h; cases h
              | some info =>
                rw [hi] at h
                dsimp only at h ⊢
                by_cases h4 : info.creator ≠ some p.signer
                · rw [if_pos h4] at h; cases h
                · rw [if_neg h4] at h ⊢
                  by_cases h5 : info.supply.val ≤ (s.batches batch).length
                  · rw [if_pos h5] at h; cases h
                  · rw [if_neg h5] at h ⊢
                    by_cases h6 : (s.batchListed batch).isSome = true
                    · rw [if_pos h6] at h; cases h
                    · rw [if_neg h6] at h ⊢
                      cases hq : authorise cr s (.listBatch p batch m.byte) with
                      | none => rw [hq] at h; cases h
                      | some b =>
                        exact .listBatch cr p batch m b k info rfl h3 hk hi (by simpa using h4) (by simpa using h6) (by omega)
                          (authorise_some rfl hq)
  | endBatch cr a p batch =>
    refine trans_view fun h => ?_
    unfold endBatch at h ⊢
    by_cases ha : a ≠ p.signer
    · rw [if_pos ha] at h; cases h
    · rw [if_neg ha] at h ⊢
      have ha : a = p.signer := by simpa using ha
      subst ha
      cases hv : validateEndBatch s batch with
      | some e => rw [hv] at h; cases h
      | none =>
        rw [hv] at h
        dsimp only at h ⊢
        by_cases h2 : (s.batchListed batch).getD .unknown ≠ .fiat
        · rw [if_pos h2] at h; cases h
        · rw [if_neg h2] at h ⊢
          have hm : s.batchListed batch = some .fiat := getD_ne_unknown (by simp) h2
          obtain ⟨k, m, hk, -⟩ := validateEndBatch_none hv
          unfold infoForBatch at h ⊢
          rw [hk, Option.getD_some] at h ⊢
          cases hi : s.infos k with
          | none => rw [hi] at h; cases h
          | some info =>
            rw [hi] at h
            dsimp only at h ⊢
            by_cases h4 : info.creator ≠ some p.signer
            · rw [if_pos h4] at h; cases h
            · rw [if_neg h4] at h ⊢
              cases hq : authorise cr s (.endBatchSale p batch) with
              | none => rw [hq] at h; cases h
              | some b =>
                dsimp only
                simp only [endBatchListing, hv, hm]
                exact .endFiat cr p batch b k info rfl hk hi (by simpa using h4) hm (authorise_some rfl hq)
  | ethTransfer known id d o =>
    simp only [step, ethTransfer]
    by_cases h1 : (s.listed id).getD .unknown ≠ .ethereum
    · rw [if_pos h1]; exact .same
    · rw [if_neg h1]
      have hm := getD_ne_unknown (by simp) h1
      cases hn : s.nfts id with
      | none => exact .same
      | some nft =>
        dsimp only
        by_cases h2 : o ≠ nft.nonce
        · rw [if_pos h2]; exact .same
        · rw [if_neg h2]
          by_cases h3 : ¬ known = true
          · rw [if_pos h3]; exact .same
          · rw [if_neg h3, transferNft_some hm hn, hm]
            have h2 : o = nft.nonce := by simpa using h2
            subst h2
            exact .transfer id d .ethereum nft none hn hm (Or.inl ⟨known, rfl, by simpa using h3, rfl, rfl⟩)
  | ethCancel known id o =>
    simp only [step, ethCancel]
    cases hn : s.nfts id with
    | none => exact .same
    | some nft =>
      dsimp only
      by_cases h1 : (s.listed id).getD .unknown ≠ .ethereum
      · rw [if_pos h1]; exact .same
      · rw [if_neg h1]
        have hm := getD_ne_unknown (by simp) h1
        by_cases h2 : o ≠ nft.nonce
        · rw [if_pos h2]; exact .same
        · rw [if_neg h2]
          by_cases h3 : ¬ known = true
          · rw [if_pos h3]; exact .same
          · rw [if_neg h3, unlistNft_some hm hn, hm]
            have h2 : o = nft.nonce := by simpa using h2
            subst h2
            exact .unlist id .ethereum nft none hn hm (Or.inl ⟨known, rfl, by simpa using h3, rfl, rfl⟩)
  | ethMint known batch o i r =>
    simp only [step, ethMint]
    by_cases h3 : ¬ known = true
    · rw [if_pos h3]; exact .same
    · rw [if_neg h3]
      by_cases h1 : (s.batchListed batch).getD .unknown ≠ .ethereum
      · rw [if_pos h1]; exact .same
      · rw [if_neg h1]
        have hm := getD_ne_unknown (by simp) h1
        rcases mintBatchNft_cases (keccak := keccak) (batch := batch) (owner := o) (index := i) (r := r) (m := .ethereum)
          (auth := none) hinv with ⟨hs, -⟩ | ⟨k, info', m', g1, g2, g3, g4, g5, g6, g7, g8⟩
        · rw [hs]; exact .same
        · rw [g7]
          exact .batchMint batch i r o .ethereum none k info' g6 g5 g1 g2 g4 hm (Or.inl ⟨known, rfl, by simpa using h3, rfl, rfl⟩)
  | ethEnd known batch =>
    simp only [step, ethEnd]
    by_cases h3 : ¬ known = true
    · rw [if_pos h3]; exact .same
    · rw [if_neg h3]
      by_cases h1 : (s.batchListed batch).getD .unknown ≠ .ethereum
      · rw [if_pos h1]; exact .same
      · rw [if_neg h1]
        have hm := getD_ne_unknown (by simp) h1
        simp only [endBatchListing]
        cases hv : validateEndBatch s batch with
        | some e => exact .same
        | none =>
          simp only [hm]
          exact .endEth known batch rfl (by simpa using h3) hm

theorem SupplyInv.view {keccak : List UInt8 → Hash} {s s' : State} {x : Step} (h : SupplyInv s) (v : View keccak s x s') : SupplyInv s' := by
  cases v with
  | single r o y t1 auth =>
    intro k info hk
    by_cases hn : k = s.nextInfo
    · subst hn
      simp only [singleState, note, upd_same, Option.some.injEq] at hk
      subst hk
      show (1 : U64).val ≤ batchBound
      decide
    · simp only [singleState, note, upd_ne _ _ hn] at hk; exact h k info hk
  | create cr p n y t1 b hx h0 h1 =>
    intro k info hk
    by_cases hn : k = s.nextInfo
    · subst hn
      simp only [createState, note, upd_same, Option.some.injEq] at hk
      subst hk
      exact h1
    · simp only [createState, note, upd_ne _ _ hn] at hk; exact h k info hk
  | _ => exact h

theorem run_snoc (keccak : List UInt8 → Hash) (l : List Step) (x : Step) : run keccak (l ++ [x]) = step keccak (run keccak l) x := by
  simp [run]

theorem run_supply (keccak : List UInt8 → Hash) (l : List Step) : SupplyInv (run keccak l) := by
  induction l using List.reverseRecOn with
  | nil => intro k info hk; simp [run, init] at hk
  | append_singleton l x ih => rw [run_snoc]; exact ih.view (step_view keccak _ x ih)

theorem run_view (keccak : List UInt8 → Hash) (l : List Step) (x : Step) : View keccak (run keccak l) x (step keccak (run keccak l) x) :=
  step_view keccak _ x (run_supply keccak l)

/-- An invariant of one step holds in every history. -/
theorem run_invariant {P : State → Prop} (keccak : List UInt8 → Hash) (h0 : P init)
    (h : ∀ s x s', P s → View keccak s x s' → P s') (l : List Step) : P (run keccak l) := by
  induction l using List.reverseRecOn with
  | nil => exact h0
  | append_singleton l x ih => rw [run_snoc]; exact h _ _ _ ih (run_view keccak l x)

end Verif.Nft
