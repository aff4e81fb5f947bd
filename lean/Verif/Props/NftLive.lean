import Verif.Props.NftIds

/-!
# Property C142 (and what C58, C81 need): valid NFT requests are honoured

The other NFT properties say what cannot happen. Here: in every history, the owner of an NFT (the creator of a batch) can do with it what
the pallet offers, whatever happened before.
-/

namespace Verif.Nft
open Verif.ProxyCalls

/-! ### Invariants -/

/-- No NFT is locked, only existing NFTs and batches are listed, on a market, and only references of mints are taken. -/
structure LiveInv (s : State) : Prop where
  free : ∀ id nft, s.nfts id = some nft → nft.isLocked = false
  listed : ∀ id m, s.listed id = some m → m ≠ .unknown ∧ ∃ nft, s.nfts id = some nft
  batchListed : ∀ b m, s.batchListed b = some m → m ≠ .unknown ∧ ∃ k, s.batchInfo b = some k
  used : ∀ r, s.refs r = true → ∃ id, (id, r) ∈ s.log.filterMap mintOf

theorem mem_snoc {l : List Obs} {o : Obs} {p : U256 × List UInt8} (h : p ∈ l.filterMap mintOf) : p ∈ (l ++ [o]).filterMap mintOf := by
  rw [filterMap_snoc]; exact List.mem_append_left _ h

theorem mem_snoc_new {l : List Obs} {o : Obs} {p : U256 × List UInt8} (h : mintOf o = some p) : p ∈ (l ++ [o]).filterMap mintOf := by
  rw [filterMap_snoc, h]; exact List.mem_append_right _ (List.mem_singleton.mpr rfl)

theorem used_upd {s : State} {o : Obs} {id : U256} {r : List UInt8} (ho : mintOf o = some (id, r))
    (h : ∀ r, s.refs r = true → ∃ id, (id, r) ∈ s.log.filterMap mintOf) :
    ∀ x, upd s.refs r true x = true → ∃ id, (id, x) ∈ (s.log ++ [o]).filterMap mintOf := by
  intro x hx
  by_cases e : x = r
  · subst e; exact ⟨id, mem_snoc_new ho⟩
  · rw [upd_ne _ _ e] at hx
    obtain ⟨i, hi⟩ := h x hx
    exact ⟨i, mem_snoc hi⟩

theorem used_same {s : State} {o : Obs} (h : ∀ r, s.refs r = true → ∃ id, (id, r) ∈ s.log.filterMap mintOf) :
    ∀ r, s.refs r = true → ∃ id, (id, r) ∈ (s.log ++ [o]).filterMap mintOf := fun r hr => by
  obtain ⟨i, hi⟩ := h r hr
  exact ⟨i, mem_snoc hi⟩

theorem free_upd {s : State} {id : U256} {n : Nft} (h : ∀ id nft, s.nfts id = some nft → nft.isLocked = false)
    (hn : n.isLocked = false) : ∀ i nft, upd s.nfts id (some n) i = some nft → nft.isLocked = false := by
  intro i nft hi
  by_cases e : i = id
  · subst e; rw [upd_same] at hi; injection hi with hi; subst hi; exact hn
  · rw [upd_ne _ _ e] at hi; exact h i nft hi

theorem exists_upd {s : State} {id i : U256} {n : Nft} (h : ∃ nft, s.nfts i = some nft) : ∃ nft, upd s.nfts id (some n) i = some nft := by
  by_cases e : i = id
  · subst e; exact ⟨n, upd_same _ _ _⟩
  · rw [upd_ne _ _ e]; exact h

theorem none_upd {α β : Type} [DecidableEq α] {f : α → Option β} {a i : α} {m : β} (h : upd f a none i = some m) : f i = some m ∧ i ≠ a := by
  by_cases e : i = a
  · subst e; rw [upd_same] at h; cases h
  · rw [upd_ne _ _ e] at h; exact ⟨h, e⟩

theorem LiveInv.view {keccak : List UInt8 → Hash} {s s' : State} {x : Step} (h : LiveInv s) (v : View keccak s x s') : LiveInv s' := by
  obtain ⟨i1, i2, i3, i4⟩ := h
  cases v with
  | same => exact ⟨i1, i2, i3, i4⟩
  | single r o y t1 auth hid href =>
    exact ⟨free_upd i1 rfl, fun id m hm => ⟨(i2 id m hm).1, exists_upd (i2 id m hm).2⟩, i3, used_upd rfl i4⟩
  | batchMint batch i r o m auth k info hid href =>
    exact ⟨free_upd i1 rfl, fun id m hm => ⟨(i2 id m hm).1, exists_upd (i2 id m hm).2⟩, i3, used_upd rfl i4⟩
  | list id m nft auth h0 hm =>
    refine ⟨free_upd i1 (i1 id nft h0), fun j m' hm' => ?_, i3, used_same i4⟩
    simp only [listState, note] at hm' ⊢
    by_cases e : j = id
    · subst e; rw [upd_same] at hm'; injection hm' with hm'; subst hm'; exact ⟨hm, _, upd_same _ _ _⟩
    · rw [upd_ne _ _ e] at hm'; exact ⟨(i2 j m' hm').1, exists_upd (i2 j m' hm').2⟩
  | transfer id new m nft auth h0 =>
    refine ⟨free_upd i1 (i1 id nft h0), fun j m' hm' => ?_, i3, used_same i4⟩
    have hm' := (none_upd hm').1
    exact ⟨(i2 j m' hm').1, exists_upd (i2 j m' hm').2⟩
  | unlist id m nft auth h0 =>
    refine ⟨free_upd i1 (i1 id nft h0), fun j m' hm' => ?_, i3, used_same i4⟩
    have hm' := (none_upd hm').1
    exact ⟨(i2 j m' hm').1, exists_upd (i2 j m' hm').2⟩
  | create cr p supply y t1 b hx h0 h1 hid =>
    refine ⟨i1, i2, fun b' m hm => ⟨(i3 b' m hm).1, ?_⟩, used_same i4⟩
    obtain ⟨k, hk⟩ := (i3 b' m hm).2
    simp only [createState, note]
    by_cases e : b' = batchIdOf keccak s.nextUnique
    · rw [e]; exact ⟨_, upd_same _ _ _⟩
    · rw [upd_ne _ _ e]; exact ⟨k, hk⟩
  | listBatch cr p batch m b k info hx hm hk =>
    refine ⟨i1, i2, fun b' m' hm' => ?_, used_same i4⟩
    simp only [listBatchState, note] at hm' ⊢
    by_cases e : b' = batch
    · subst e; rw [upd_same] at hm'; injection hm' with hm'; subst hm'; exact ⟨hm, k, hk⟩
    · rw [upd_ne _ _ e] at hm'; exact i3 b' m' hm'
  | endFiat => exact ⟨i1, i2, fun b' m' hm' => i3 b' m' (none_upd hm').1, used_same i4⟩
  | endEth => exact ⟨i1, i2, fun b' m' hm' => i3 b' m' (none_upd hm').1, used_same i4⟩

theorem run_live (keccak : List UInt8 → Hash) (steps : List Step) : LiveInv (run keccak steps) :=
  run_invariant keccak ⟨by simp [init], by simp [init], by simp [init], by simp [init]⟩ (fun _ _ _ h v => h.view v) steps

/-! ### C58, C81: a reference is taken only by a mint -/

/-- C58: a reference is refused as taken exactly when some mint of the history used it. -/
theorem C58_reference_taken_iff_minted (keccak : List UInt8 → Hash) (steps : List Step) (r : List UInt8) :
    (run keccak steps).refs r = true ↔ ∃ id, (id, r) ∈ (run keccak steps).log.filterMap mintOf := by
  refine ⟨(run_live keccak steps).used r, fun ⟨id, h⟩ => ?_⟩
  obtain ⟨_, _, _, e⟩ := (run_mint keccak steps).taken _ h
  exact e

/-- **C81.** The single mint again, with "unused" said in terms of the history: no mint so far carried this reference. -/
theorem C81_fresh_reference_can_be_minted (keccak : List UInt8 → Hash) (steps : List Step) (sender : Acct) (extRef : List UInt8)
    (roy : List Royalty) (t1 : Addr) (hc : CollisionFree keccak ((run keccak steps).nextUnique + 1))
    (hn : (run keccak steps).nextUnique < 2 ^ 256) (hr : extRef ≠ []) (hl : extRef.length ≤ 1024)
    (hu : ∀ id, (id, extRef) ∉ (run keccak steps).log.filterMap mintOf) (ht : t1 ≠ Vector.replicate 20 0) (hroy : RoyaltiesFine roy) :
    ∃ id, (run keccak steps).nfts id = none ∧
      (run keccak (steps ++ [.mintSingle sender extRef roy t1])).log = (run keccak steps).log ++ [⟨.minted id extRef sender none .unknown, none⟩] := by
  obtain ⟨id, h1, -, h2⟩ := C81_valid_single_mint_succeeds keccak steps sender extRef roy t1 hc hn hr hl
    (by
      cases h : (run keccak steps).refs extRef with
      | false => rfl
      | true =>
        obtain ⟨id, hid⟩ := (C58_reference_taken_iff_minted keccak steps extRef).mp h
        exact absurd hid (hu id)) ht hroy
  exact ⟨id, h1, h2⟩

/-! ### C142, one NFT -/

/-- The bytes the owner signs to list NFT `id` at nonce `n` on a market through `relayer`. -/
def listBytes (relayer : Acct) (id : U256) (m : UInt8) (n : U64) : List UInt8 :=
  scaleBytes (ascii "authorization for list nft open for sale operation") ++
    (relayer.toList ++ (leBytes 32 id.val ++ (m :: leBytes 8 n.val)))

/-- The bytes the owner signs to take NFT `id` at nonce `n` off the fiat market through `relayer`. -/
def cancelBytes (relayer : Acct) (id : U256) (n : U64) : List UInt8 :=
  scaleBytes (ascii "authorization for cancel list fiat nft for sale operation") ++
    (relayer.toList ++ (leBytes 32 id.val ++ leBytes 8 n.val))

theorem authorise_of {cr : Crypto} {s : State} {c : Call} {p : Proof} {b : List UInt8} (hp : c.proof? = some p)
    (hb : payload (view s) c = some b) (hv : verifySignature cr p b = true) : authorise cr s c = some b := by
  unfold authorise
  rw [hp, hb]
  dsimp only
  rw [if_pos hv]

theorem validateOpen_ok {s : State} {id : U256} {nft : Nft} {m : Market} (h : s.nfts id = some nft) (hf : nft.isLocked = false)
    (hl : s.listed id = none) (hm : m ≠ .unknown) : validateOpen s nft.owner id m = none := by
  unfold validateOpen
  rw [if_neg hm, h]
  dsimp only
  rw [hl, if_neg (by simp), if_neg (by simp), hf, if_neg (by simp)]

/-- **C142.** In every history, the owner of an NFT that is not listed can list it on a market; the nonce goes up. -/
theorem C142_owner_can_list (keccak : List UInt8 → Hash) (steps : List Step) (id : U256) (nft : Nft) (m : Market)
    (h : (run keccak steps).nfts id = some nft) (hl : (run keccak steps).listed id = none) (hm : m ≠ .unknown) :
    let s' := run keccak (steps ++ [.list nft.owner id m])
    s'.listed id = some m ∧ s'.nfts id = some { nft with nonce := nft.nonce + 1 } := by
  have hi := (run_live keccak steps).free id nft h
  rw [run_snoc]
  generalize run keccak steps = s at *
  have e : step keccak s (.list nft.owner id m) = listState id m nft none s := by
    show transactional s (list nft.owner id m s) = _
    unfold list
    rw [validateOpen_ok h hi hl hm]
    dsimp only
    rw [openForSale_eq h]
    rfl
  rw [e]
  exact ⟨upd_same _ _ _, upd_same _ _ _⟩

/-- **C142.** The same through a relayer, with the owner's signature over the listing bytes of the current nonce. -/
theorem C142_owner_can_list_by_signature (keccak : List UInt8 → Hash) (steps : List Step) (cr : Crypto) (p : Proof) (id : U256) (nft : Nft)
    (m : Market) (h : (run keccak steps).nfts id = some nft) (ho : p.signer = nft.owner) (hl : (run keccak steps).listed id = none)
    (hm : m ≠ .unknown) (hv : verifySignature cr p (listBytes p.relayer id m.byte nft.nonce) = true) :
    let s' := run keccak (steps ++ [.signedList cr nft.owner p id m])
    s'.listed id = some m ∧ s'.nfts id = some { nft with nonce := nft.nonce + 1 } := by
  have hi := (run_live keccak steps).free id nft h
  rw [run_snoc]
  generalize run keccak steps = s at *
  have hb : payload (view s) (.listNft p id m.byte) = some (listBytes p.relayer id m.byte nft.nonce) := by
    simp [payload, fields, view, h, listBytes, context, encFields, Field.enc]
  have e : step keccak s (.signedList cr nft.owner p id m) =
      listState id m nft (some (.listNft p id m.byte, listBytes p.relayer id m.byte nft.nonce)) s := by
    show transactional s (signedList cr nft.owner p id m s) = _
    unfold signedList
    rw [if_neg (by rw [ho]; simp), validateOpen_ok h hi hl hm]
    dsimp only
    rw [authorise_of (p := p) rfl hb hv]
    dsimp only
    rw [openForSale_eq h]
    rfl
  rw [e]
  exact ⟨upd_same _ _ _, upd_same _ _ _⟩

theorem validateFiat_of {s : State} {id : U256} {nft : Nft} (h : s.nfts id = some nft) (hf : nft.isLocked = false)
    (hl : s.listed id = some .fiat) : validateFiat s nft.owner id = .ok nft := by
  unfold validateFiat
  rw [hl, if_neg (by simp), if_neg (by simp), h]
  dsimp only
  rw [if_neg (by simp), hf, if_neg (by simp)]

/-- **C142.** In every history, the owner of an NFT listed for fiat sale can hand it to any account but the zero one by signing the transfer
bytes of the current nonce. -/
theorem C142_owner_can_transfer (keccak : List UInt8 → Hash) (steps : List Step) (cr : Crypto) (p : Proof) (id : U256) (nft : Nft) (dst : Hash)
    (h : (run keccak steps).nfts id = some nft) (ho : p.signer = nft.owner) (hl : (run keccak steps).listed id = some .fiat)
    (hd : dst ≠ Vector.replicate 32 0) (hv : verifySignature cr p (transferBytes p.relayer id dst nft.nonce) = true) :
    let s' := run keccak (steps ++ [.transferFiat cr nft.owner p id dst])
    s'.listed id = none ∧ s'.nfts id = some { nft with owner := dst, nonce := nft.nonce + 1 } := by
  have hi := (run_live keccak steps).free id nft h
  rw [run_snoc]
  generalize run keccak steps = s at *
  have hb : payload (view s) (.transferFiatNft p id dst) = some (transferBytes p.relayer id dst nft.nonce) := by
    simp [payload, fields, view, h, transferBytes, context, encFields, Field.enc]
  have e : step keccak s (.transferFiat cr nft.owner p id dst) = transferState id nft.owner dst .fiat nft.nonce nft
      (some (.transferFiatNft p id dst, transferBytes p.relayer id dst nft.nonce)) s := by
    show transactional s (transferFiat cr nft.owner p id dst s) = _
    unfold transferFiat
    rw [if_neg (by rw [ho]; simp), if_neg hd, validateFiat_of h hi hl]
    dsimp only
    rw [authorise_of (p := p) rfl hb hv]
    dsimp only
    rw [transferNft_some hl h, hl]
    rfl
  rw [e]
  exact ⟨upd_same _ _ _, upd_same _ _ _⟩

/-- **C142.** In every history, the owner of an NFT listed for fiat sale can take it off the market by signing the cancel bytes of the
current nonce. -/
theorem C142_owner_can_cancel (keccak : List UInt8 → Hash) (steps : List Step) (cr : Crypto) (p : Proof) (id : U256) (nft : Nft)
    (h : (run keccak steps).nfts id = some nft) (ho : p.signer = nft.owner) (hl : (run keccak steps).listed id = some .fiat)
    (hv : verifySignature cr p (cancelBytes p.relayer id nft.nonce) = true) :
    let s' := run keccak (steps ++ [.cancelFiat cr nft.owner p id])
    s'.listed id = none ∧ s'.nfts id = some { nft with nonce := nft.nonce + 1 } := by
  have hi := (run_live keccak steps).free id nft h
  rw [run_snoc]
  generalize run keccak steps = s at *
  have hb : payload (view s) (.cancelListNft p id) = some (cancelBytes p.relayer id nft.nonce) := by
    simp [payload, fields, view, h, cancelBytes, context, encFields, Field.enc]
  have e : step keccak s (.cancelFiat cr nft.owner p id) = unlistState id .fiat nft.nonce nft
      (some (.cancelListNft p id, cancelBytes p.relayer id nft.nonce)) s := by
    show transactional s (cancelFiat cr nft.owner p id s) = _
    unfold cancelFiat
    rw [if_neg (by rw [ho]; simp), validateFiat_of h hi hl]
    dsimp only
    rw [authorise_of (p := p) rfl hb hv]
    dsimp only
    rw [unlistNft_some hl h, hl]
    rfl
  rw [e]
  exact ⟨upd_same _ _ _, upd_same _ _ _⟩

/-- **C142.** In every history, a processed Ethereum transfer event naming the current nonce of an NFT listed for sale on Ethereum moves it
to the recipient, and a cancel event takes it off the market. -/
theorem C142_ethereum_can_settle (keccak : List UInt8 → Hash) (steps : List Step) (id : U256) (nft : Nft) (dst : Hash)
    (h : (run keccak steps).nfts id = some nft) (hl : (run keccak steps).listed id = some .ethereum) :
    ((run keccak (steps ++ [.ethTransfer true id dst nft.nonce])).listed id = none ∧
      (run keccak (steps ++ [.ethTransfer true id dst nft.nonce])).nfts id = some { nft with owner := dst, nonce := nft.nonce + 1 }) ∧
    ((run keccak (steps ++ [.ethCancel true id nft.nonce])).listed id = none ∧
      (run keccak (steps ++ [.ethCancel true id nft.nonce])).nfts id = some { nft with nonce := nft.nonce + 1 }) := by
  rw [run_snoc, run_snoc]
  generalize run keccak steps = s at *
  constructor
  · have e : step keccak s (.ethTransfer true id dst nft.nonce) = transferState id nft.owner dst .ethereum nft.nonce nft none s := by
      show (ethTransfer true id dst nft.nonce s).1 = _
      unfold ethTransfer
      rw [hl, if_neg (by simp), h]
      dsimp only
      rw [if_neg (by simp), if_neg (by simp), transferNft_some hl h]
      rfl
    rw [e]
    exact ⟨upd_same _ _ _, upd_same _ _ _⟩
  · have e : step keccak s (.ethCancel true id nft.nonce) = unlistState id .ethereum nft.nonce nft none s := by
      show (ethCancel true id nft.nonce s).1 = _
      unfold ethCancel
      rw [h]
      dsimp only
      rw [hl, if_neg (by simp), if_neg (by simp), if_neg (by simp), unlistNft_some hl h]
      rfl
    rw [e]
    exact ⟨upd_same _ _ _, upd_same _ _ _⟩

/-- **C142.** In every history, whatever is listed exists, and is listed for fiat sale or for sale on Ethereum: so one of the ways out above
is open for it. -/
theorem C142_listed_on_a_market (keccak : List UInt8 → Hash) (steps : List Step) (id : U256) (m : Market)
    (h : (run keccak steps).listed id = some m) :
    (m = .fiat ∨ m = .ethereum) ∧ ∃ nft, (run keccak steps).nfts id = some nft := by
  obtain ⟨hm, he⟩ := (run_live keccak steps).listed id m h
  refine ⟨?_, he⟩
  cases m with
  | unknown => exact absurd rfl hm
  | ethereum => exact Or.inr rfl
  | fiat => exact Or.inl rfl

/-! ### C142, batches -/

/-- Account `a` created batch `b` with the given supply, and not all of it was minted. -/
def Open (s : State) (b : U256) (a : Acct) (supply : U64) : Prop :=
  s.log.filterMap (createdAs b) = [(supply, a)] ∧ s.log.countP (mintedFrom b) < supply.val

/-- The bytes the creator signs to create a batch. -/
def createBytes (relayer : Acct) (supply : U64) (roy : SVec Royalty) (t1 : Addr) (n : U64) : List UInt8 :=
  scaleBytes (ascii "authorization for create batch operation") ++
    (relayer.toList ++ (leBytes 8 supply.val ++ (scaleVec encRoyalty roy.val ++ (t1.toList ++ leBytes 8 n.val))))

/-- The bytes the creator signs to list a batch. -/
def listBatchBytes (relayer : Acct) (b : U256) (m : UInt8) (n : U64) : List UInt8 :=
  scaleBytes (ascii "authorization for list batch for sale operation") ++
    (relayer.toList ++ (leBytes 32 b.val ++ (m :: leBytes 8 n.val)))

/-- The bytes the creator signs to end a batch's sale. -/
def endBatchBytes (relayer : Acct) (b : U256) (n : U64) : List UInt8 :=
  scaleBytes (ascii "authorization for end batch sale operation") ++ (relayer.toList ++ (leBytes 32 b.val ++ leBytes 8 n.val))

/-- The bytes the creator signs to mint from a batch. -/
def mintBatchBytes (relayer : Acct) (b : U256) (index : U64) (owner : Acct) (r : SVec UInt8) : List UInt8 :=
  scaleBytes (ascii "authorization for mint batch nft operation") ++
    (relayer.toList ++ (leBytes 32 b.val ++ (leBytes 8 index.val ++ (scaleBytes r.val ++ owner.toList))))

theorem created_info {s : State} (hb : BatchInv s) {b : U256} {a : Acct} {supply : U64}
    (h : s.log.filterMap (createdAs b) = [(supply, a)]) :
    ∃ k info, s.batchInfo b = some k ∧ s.infos k = some info ∧ info.creator = some a ∧ info.supply = supply := by
  cases hk : s.batchInfo b with
  | none => rw [hb.fresh b hk] at h; cases h
  | some k =>
    obtain ⟨info, hi⟩ := hb.known b k hk
    obtain ⟨x, h1, h2⟩ := hb.created b k info hk hi
    rw [h2] at h
    injection h with h _
    injection h with h3 h4
    subst h4
    exact ⟨k, info, rfl, hi, h1, h3⟩

/-- **C142.** Any account can create a batch of 1 to 16384 NFTs with admissible royalties and a non-zero authority. -/
theorem C142_batches_can_be_created (keccak : List UInt8 → Hash) (steps : List Step) (cr : Crypto) (p : Proof) (supply : U64)
    (roy : SVec Royalty) (t1 : Addr) (hc : CollisionFree keccak ((run keccak steps).nextUnique + 1))
    (hn : (run keccak steps).nextUnique < 2 ^ 256) (h0 : supply.val ≠ 0) (h1 : supply.val ≤ 16384) (ht : t1 ≠ Vector.replicate 20 0)
    (hroy : RoyaltiesFine roy.val)
    (hv : verifySignature cr p (createBytes p.relayer supply roy t1 ((run keccak steps).batchNonce p.signer)) = true) :
    ∃ id auth, (run keccak (steps ++ [.createBatch cr p.signer p supply roy t1])).log =
      (run keccak steps).log ++ [⟨.batchCreated id supply p.signer, auth⟩] := by
  have hf := C81_batch_id_is_fresh keccak steps cr p.signer p supply roy t1 hc hn
  rw [run_snoc]
  generalize run keccak steps = s at *
  have hb : payload (view s) (.createBatch p supply roy t1) = some (createBytes p.relayer supply roy t1 (s.batchNonce p.signer)) := by
    simp [payload, fields, view, createBytes, context, encFields, Field.enc]
  have key : ∀ id, batchIdOf keccak s.nextUnique = id → s.batchInfo id = none →
      step keccak s (.createBatch cr p.signer p supply roy t1) = createState id supply roy.val t1 p.signer
        (some (.createBatch p supply roy t1, createBytes p.relayer supply roy t1 (s.batchNonce p.signer))) s := by
    intro id hid hnone
    subst hid
    show transactional s (createBatch cr keccak p.signer p supply roy t1 s) = _
    unfold createBatch
    rw [if_neg (by simp), if_neg ht, if_neg h0, if_neg (by show ¬ 16384 < _; omega), validateRoyalties_fine hroy]
    dsimp only
    rw [authorise_of (p := p) rfl hb hv]
    dsimp only
    rw [hnone, if_neg (by simp), if_neg (by have := hroy.1; show ¬ 16 < _; omega)]
    rfl
  have hnone : s.batchInfo (batchIdOf keccak s.nextUnique) = none := by
    cases hk : s.batchInfo (batchIdOf keccak s.nextUnique) with
    | none => rfl
    | some k =>
      exfalso
      apply hf
      unfold createBatch
      rw [if_neg (by simp), if_neg ht, if_neg h0, if_neg (by show ¬ 16384 < _; omega), validateRoyalties_fine hroy]
      dsimp only
      rw [authorise_of (p := p) rfl hb hv]
      dsimp only
      rw [hk, if_pos (by simp)]
  rw [key _ rfl hnone]
  exact ⟨_, _, rfl⟩

/-- **C142.** In every history, the creator of a batch that is not sold out can list it, if it is not listed, by signing the listing bytes. -/
theorem C142_creator_can_list_batch (keccak : List UInt8 → Hash) (steps : List Step) (cr : Crypto) (p : Proof) (b : U256) (supply : U64)
    (m : Market) (h : Open (run keccak steps) b p.signer supply) (hb0 : b ≠ 0) (hl : (run keccak steps).batchListed b = none)
    (hm : m ≠ .unknown)
    (hv : verifySignature cr p (listBatchBytes p.relayer b m.byte ((run keccak steps).batchNonce p.signer)) = true) :
    (run keccak (steps ++ [.listBatch cr p.signer p b m])).batchListed b = some m := by
  have hB := run_batch keccak steps
  rw [run_snoc]
  generalize run keccak steps = s at *
  obtain ⟨k, info, hk, hi, hcr, hs⟩ := created_info hB h.1
  have hb : payload (view s) (.listBatch p b m.byte) = some (listBatchBytes p.relayer b m.byte (s.batchNonce p.signer)) := by
    simp [payload, fields, view, listBatchBytes, context, encFields, Field.enc]
  have hlt : ¬ info.supply.val ≤ (s.batches b).length := by
    have := h.2; rw [hB.count b] at this; rw [hs]; omega
  have e : step keccak s (.listBatch cr p.signer p b m) = listBatchState b m p.signer
      (some (.listBatch p b m.byte, listBatchBytes p.relayer b m.byte (s.batchNonce p.signer))) s := by
    show transactional s (listBatch cr p.signer p b m s) = _
    unfold listBatch
    have hinfo : infoForBatch s b = some info := by unfold infoForBatch; rw [hk]; exact hi
    rw [if_neg (by simp), if_neg hb0, hk, if_neg (by simp), if_neg hm, hinfo]
    dsimp only
    rw [hcr, if_neg (by simp), if_neg hlt, hl, if_neg (by simp), authorise_of (p := p) rfl hb hv]
    rfl
  rw [e]
  exact upd_same _ _ _

/-- **C142.** In every history, the creator of a batch listed for fiat sale can end the sale by signing the end bytes; a processed Ethereum
event ends a sale on Ethereum. -/
theorem C142_sale_can_be_ended (keccak : List UInt8 → Hash) (steps : List Step) (b : U256) (hb0 : b ≠ 0) :
    (∀ cr p supply, (run keccak steps).log.filterMap (createdAs b) = [(supply, p.signer)] → (run keccak steps).batchListed b = some .fiat →
      verifySignature cr p (endBatchBytes p.relayer b ((run keccak steps).batchNonce p.signer)) = true →
      (run keccak (steps ++ [.endBatch cr p.signer p b])).batchListed b = none) ∧
    ((run keccak steps).batchListed b = some .ethereum → (run keccak (steps ++ [.ethEnd true b])).batchListed b = none) := by
  have hB := run_batch keccak steps
  have hL := run_live keccak steps
  constructor
  · intro cr p supply h hl hv
    rw [run_snoc]
    generalize run keccak steps = s at *
    obtain ⟨k, info, hk, hi, hcr, hs⟩ := created_info hB h
    have hb : payload (view s) (.endBatchSale p b) = some (endBatchBytes p.relayer b (s.batchNonce p.signer)) := by
      simp [payload, fields, view, endBatchBytes, context, encFields, Field.enc]
    have hinfo : infoForBatch s b = some info := by unfold infoForBatch; rw [hk]; exact hi
    have hve : validateEndBatch s b = none := by
      unfold validateEndBatch
      rw [if_neg hb0, hk, if_neg (by simp), hl, if_neg (by simp)]
    have e : step keccak s (.endBatch cr p.signer p b) = endBatchState b .fiat (some p.signer)
        (some (.endBatchSale p b, endBatchBytes p.relayer b (s.batchNonce p.signer))) s := by
      show transactional s (endBatch cr p.signer p b s) = _
      unfold endBatch
      rw [if_neg (by simp), hve]
      dsimp only
      rw [hl, if_neg (by simp), hinfo]
      dsimp only
      rw [hcr, if_neg (by simp), authorise_of (p := p) rfl hb hv]
      dsimp only
      unfold endBatchListing
      rw [hve]
      rfl
    rw [e]
    exact upd_same _ _ _
  · intro hl
    rw [run_snoc]
    generalize run keccak steps = s at *
    obtain ⟨-, k, hk⟩ := hL.batchListed b _ hl
    have hve : validateEndBatch s b = none := by
      unfold validateEndBatch
      rw [if_neg hb0, hk, if_neg (by simp), hl, if_neg (by simp)]
    have e : step keccak s (.ethEnd true b) = endBatchState b .ethereum none none s := by
      show (ethEnd true b s).1 = _
      unfold ethEnd
      rw [if_neg (by simp), hl, if_neg (by simp)]
      unfold endBatchListing
      rw [hve]
      rfl
    rw [e]
    exact upd_same _ _ _

/-- What a mint of NFT `index` of an open batch with reference `r` needs: a reference of 1 to 1024 bytes that no mint used, and an index not
minted before. -/
structure Mintable (steps : List Step) (s : State) (b : U256) (index : U64) (r : List UInt8) : Prop where
  nonempty : r ≠ []
  short : r.length ≤ 1024
  fresh : ∀ id, (id, r) ∉ s.log.filterMap mintOf
  index : ∀ x ∈ steps, ¬ MintsItem b index x

theorem validateMintBatch_of (keccak : List UInt8 → Hash) (steps : List Step) (b : U256) (a : Acct) (supply : U64) (index : U64)
    (r : List UInt8) (m : Market) (h : Open (run keccak steps) b a supply) (hb0 : b ≠ 0) (hl : (run keccak steps).batchListed b = some m)
    (hm : Mintable steps (run keccak steps) b index r) :
    ∃ info, validateMintBatch (run keccak steps) b r = .ok info ∧ info.creator = some a := by
  have hB := run_batch keccak steps
  have hu : (run keccak steps).refs r = false := by
    cases hr : (run keccak steps).refs r with
    | false => rfl
    | true =>
      obtain ⟨id, hid⟩ := (C58_reference_taken_iff_minted keccak steps r).mp hr
      exact absurd hid (hm.fresh id)
  obtain ⟨k, info, hk, hi, hcr, hs⟩ := created_info hB h.1
  refine ⟨info, ?_, hcr⟩
  have hlt : ¬ info.supply.val ≤ ((run keccak steps).batches b).length := by
    have := h.2; rw [hB.count b] at this; rw [hs]; omega
  have hinfo : infoForBatch (run keccak steps) b = some info := by unfold infoForBatch; rw [hk]; exact hi
  unfold validateMintBatch
  rw [if_neg hb0, hk, if_neg (by simp), hl, if_neg (by simp), hinfo]
  dsimp only
  rw [if_neg hlt]
  unfold validateRef
  rw [if_neg hm.nonempty, hu, if_neg (by simp)]

theorem mintBatchNft_ok (keccak : List UInt8 → Hash) (steps : List Step) (b : U256) (a : Acct) (supply : U64) (index : U64) (owner : Acct)
    (r : List UInt8) (m market : Market) (auth : Auth) (h : Open (run keccak steps) b a supply) (hb0 : b ≠ 0)
    (hl : (run keccak steps).batchListed b = some m) (hm : Mintable steps (run keccak steps) b index r)
    (hc : CollisionFree keccak (run keccak steps).nextUnique) (hn : (run keccak steps).nextUnique ≤ 2 ^ 256) :
    (mintBatchNft keccak b owner index r market auth (run keccak steps)).2 = none ∧
    (mintBatchNft keccak b owner index r market auth (run keccak steps)).1.log =
      (run keccak steps).log ++ [⟨.minted (batchNftId keccak b index) r owner (some b) market, auth⟩] ∧
    ∃ nft, (mintBatchNft keccak b owner index r market auth (run keccak steps)).1.nfts (batchNftId keccak b index) = some nft ∧
      nft.owner = owner ∧ nft.extRef = r := by
  obtain ⟨info, hv, -⟩ := validateMintBatch_of keccak steps b a supply index r m h hb0 hl hm
  have hid : (run keccak steps).nfts (batchNftId keccak b index) = none := by
    cases hx : (run keccak steps).nfts (batchNftId keccak b index) with
    | none => rfl
    | some n =>
      have e : (mintBatchNft keccak b owner index r market auth (run keccak steps)).2 = some .nftAlreadyExists := by
        unfold mintBatchNft
        rw [hv]
        dsimp only
        rw [hx, if_pos (by simp)]
      obtain ⟨x, h1, h2⟩ := C81_batch_mint_refused_only_for_same_index keccak steps b owner index r market auth hc hn e
      exact absurd h2 (hm.index x h1)
  have hlen : ¬ batchBound ≤ ((run keccak steps).batches b).length := by
    have hB := run_batch keccak steps
    rcases C59_supply_never_exceeded keccak steps b with ⟨e, -⟩ | ⟨n, c, e, hle, -⟩
    · rw [h.1] at e; cases e
    · rw [h.1] at e
      injection e with e _
      injection e with e _
      have := h.2
      rw [hB.count b, e] at this
      show ¬ 16384 ≤ _
      omega
  unfold mintBatchNft
  rw [hv]
  dsimp only
  rw [hid, if_neg (by simp), if_neg hlen]
  exact ⟨rfl, rfl, _, upd_same _ _ _, rfl, rfl⟩

/-- **C142.** In every history, the creator of a batch that is not sold out and is listed for fiat sale can mint an NFT of a new index with a
new reference for any account, by signing the mint bytes. (Collision-free hash, at most 2^256 ids.) -/
theorem C142_creator_can_mint (keccak : List UInt8 → Hash) (steps : List Step) (cr : Crypto) (p : Proof) (b : U256) (supply index : U64)
    (owner : Acct) (r : SVec UInt8) (h : Open (run keccak steps) b p.signer supply) (hb0 : b ≠ 0)
    (hl : (run keccak steps).batchListed b = some .fiat) (hm : Mintable steps (run keccak steps) b index r.val)
    (hc : CollisionFree keccak (run keccak steps).nextUnique) (hn : (run keccak steps).nextUnique ≤ 2 ^ 256)
    (hv : verifySignature cr p (mintBatchBytes p.relayer b index owner r) = true) :
    ∃ id auth, (run keccak (steps ++ [.signedMintBatch cr p.signer p b index owner r])).log =
        (run keccak steps).log ++ [⟨.minted id r.val owner (some b) .fiat, auth⟩] ∧
      ∃ nft, (run keccak (steps ++ [.signedMintBatch cr p.signer p b index owner r])).nfts id = some nft ∧ nft.owner = owner ∧
        nft.extRef = r.val := by
  obtain ⟨info, hvm, hcr⟩ := validateMintBatch_of keccak steps b p.signer supply index r.val .fiat h hb0 hl hm
  obtain ⟨h1, h2, h3⟩ := mintBatchNft_ok keccak steps b p.signer supply index owner r.val .fiat .fiat
    (some (.mintBatchNft p b index owner r, mintBatchBytes p.relayer b index owner r)) h hb0 hl hm hc hn
  have hb : payload (view (run keccak steps)) (.mintBatchNft p b index owner r) = some (mintBatchBytes p.relayer b index owner r) := by
    simp [payload, fields, view, mintBatchBytes, context, encFields, Field.enc]
  have e : step keccak (run keccak steps) (.signedMintBatch cr p.signer p b index owner r) =
      (mintBatchNft keccak b owner index r.val .fiat
        (some (.mintBatchNft p b index owner r, mintBatchBytes p.relayer b index owner r)) (run keccak steps)).1 := by
    show transactional _ (signedMintBatch cr keccak p.signer p b index owner r _) = _
    unfold signedMintBatch
    rw [if_neg (by simp), if_neg (by have := hm.short; show ¬ 1024 < _; omega), hvm]
    dsimp only
    rw [hl, if_neg (by simp), hcr, if_neg (by simp), authorise_of (p := p) rfl hb hv]
    dsimp only
    unfold transactional
    rw [h1]
    rfl
  rw [run_snoc, e]
  exact ⟨_, _, h2, h3⟩

/-- **C142.** In every history, a processed Ethereum mint event for a batch that is not sold out and is listed for sale on Ethereum mints an
NFT of a new index with a new reference for the recipient. -/
theorem C142_ethereum_can_mint (keccak : List UInt8 → Hash) (steps : List Step) (b : U256) (a : Acct) (supply index : U64)
    (owner : Acct) (r : List UInt8) (h : Open (run keccak steps) b a supply) (hb0 : b ≠ 0)
    (hl : (run keccak steps).batchListed b = some .ethereum) (hm : Mintable steps (run keccak steps) b index r)
    (hc : CollisionFree keccak (run keccak steps).nextUnique) (hn : (run keccak steps).nextUnique ≤ 2 ^ 256) :
    ∃ id auth, (run keccak (steps ++ [.ethMint true b owner index r])).log =
        (run keccak steps).log ++ [⟨.minted id r owner (some b) .ethereum, auth⟩] ∧
      ∃ nft, (run keccak (steps ++ [.ethMint true b owner index r])).nfts id = some nft ∧ nft.owner = owner ∧ nft.extRef = r := by
  obtain ⟨h1, h2, h3⟩ := mintBatchNft_ok keccak steps b a supply index owner r .ethereum .ethereum none h hb0 hl hm hc hn
  have e : step keccak (run keccak steps) (.ethMint true b owner index r) =
      (mintBatchNft keccak b owner index r .ethereum none (run keccak steps)).1 := by
    show (ethMint true keccak b owner index r _).1 = _
    unfold ethMint
    rw [if_neg (by simp), hl, if_neg (by simp)]
  rw [run_snoc, e]
  exact ⟨_, _, h2, h3⟩

/-! ### Examples -/

/-- A history after which account 1 owns an unlisted NFT and a batch of one, listed for fiat sale. -/
def exLive : List Step := [.mintSingle (exAcct 1) [9] [] exT1, .createBatch exCrypto (exAcct 1) exProof 1 exRoy exT1,
  .listBatch exCrypto (exAcct 1) exProof exBatch .fiat]

/-- The hypotheses on the NFT are met, also after it is listed. -/
example : ((run exKeccak exLive).nfts exId).map (fun n => n.owner) = some exProof.signer ∧ (run exKeccak exLive).listed exId = none ∧
    verifySignature exCrypto exProof (listBytes exProof.relayer exId Market.fiat.byte 0) = true ∧
    (run exKeccak (exLive ++ [.list (exAcct 1) exId .fiat])).listed exId = some .fiat ∧
    verifySignature exCrypto exProof (transferBytes exProof.relayer exId exDst 1) = true ∧
    verifySignature exCrypto exProof (cancelBytes exProof.relayer exId 1) = true ∧
    (run exKeccak (exLive ++ [.list (exAcct 1) exId .ethereum])).listed exId = some .ethereum := by decide +kernel

/-- So are those on the batch. -/
example : Open (run exKeccak exLive) exBatch exProof.signer 1 ∧ exBatch ≠ 0 ∧ (run exKeccak exLive).batchListed exBatch = some .fiat ∧
    verifySignature exCrypto exProof (mintBatchBytes exProof.relayer exBatch 0 exDst (exRef 2)) = true ∧
    verifySignature exCrypto exProof (createBytes exProof.relayer 1 exRoy exT1 0) = true ∧
    verifySignature exCrypto exProof (endBatchBytes exProof.relayer exBatch 2) = true := by
  unfold Open
  decide +kernel

example : Mintable exLive (run exKeccak exLive) exBatch 0 [2] := by
  refine ⟨by decide, by decide, fun id => ?_, fun x hx => ?_⟩
  · rw [show (run exKeccak exLive).log.filterMap mintOf = [(exId, [9])] by decide +kernel]
    simp
  · simp only [exLive, List.mem_cons, List.not_mem_nil, or_false] at hx
    rcases hx with rfl | rfl | rfl <;> exact fun h => h

end Verif.Nft
