import Verif.Props.Nft
import Verif.Lemmas.Encoding
import Verif.Lemmas.EventParsing

/-!
# C81: valid mints are never refused for an id

Ids are hashes. `Hashed keccak n` lists the byte strings the pallet hashes while its counter is below `n`; a hash without a collision
among them (there are far fewer than 2^256, see `exHash_collisionFree`) makes every id fresh.
-/

namespace Verif.Nft
open Verif.ProxyCalls Verif.Parsing

/-- The byte strings hashed for ids while the unique-id counter is below `n`: `A‖authority‖counter` for a single NFT, `G‖counter` for a
batch, `B‖batch id‖index` for an NFT of a batch. -/
inductive Hashed (keccak : List UInt8 → Hash) (n : Nat) : List UInt8 → Prop
  | single (t1 : Addr) (u : Nat) (h : u < n) : Hashed keccak n (65 :: (t1.toList ++ beBytes 32 u))
  | batch (u : Nat) (h : u < n) : Hashed keccak n (71 :: beBytes 32 u)
  | item (u : Nat) (h : u < n) (index : Nat) (hi : index < 2 ^ 64) :
      Hashed keccak n (66 :: ((keccak (71 :: beBytes 32 u)).toList ++ beBytes 8 index))

/-- No collision among the strings hashed for ids. -/
def CollisionFree (keccak : List UInt8 → Hash) (n : Nat) : Prop :=
  ∀ x y, Hashed keccak n x → Hashed keccak n y → keccak x = keccak y → x = y

/-- A step of the history that mints NFT `index` of `batch`. -/
def MintsItem (batch : U256) (index : U64) : Step → Prop
  | .ethMint _ b _ i _ => b = batch ∧ i = index
  | .signedMintBatch _ _ _ b i _ _ => b = batch ∧ i = index
  | _ => False

theorem idOf_inj {h h' : Hash} (e : idOf h = idOf h') : h = h' := by
  have hlt : ∀ h : Hash, beVal h.toList < 2 ^ 256 := by
    intro h
    have := beVal_lt h.toList
    exact lt_of_lt_of_eq this (by simp)
  have e1 : (idOf h).val = (idOf h').val := by rw [e]
  unfold idOf at e1
  simp only [Fin.ofNat] at e1
  rw [Nat.mod_eq_of_lt (hlt h), Nat.mod_eq_of_lt (hlt h')] at e1
  have key : ∀ h : Hash, leBytes 32 (beVal h.toList) = h.toList.reverse := by
    intro h
    have := leBytes_leVal h.toList.reverse
    simpa [beVal] using this
  have := key h
  rw [e1, key h'] at this
  exact (Vector.toList_inj.mp (List.reverse_injective this)).symm

theorem beBytes_idOf (h : Hash) : beBytes 32 (idOf h).val = h.toList := by
  have hlt : beVal h.toList < 2 ^ 256 := by
    have := beVal_lt h.toList
    exact lt_of_lt_of_eq this (by simp)
  unfold idOf
  simp only [Fin.ofNat]
  rw [Nat.mod_eq_of_lt hlt]
  have := leBytes_leVal h.toList.reverse
  unfold beBytes beVal
  have h32 : h.toList.reverse.length = 32 := by simp
  rw [h32] at this
  rw [this, List.reverse_reverse]

theorem singleId_eq (keccak : List UInt8 → Hash) (t1 : Addr) (u : Nat) :
    singleId keccak t1 u = idOf (keccak (65 :: (t1.toList ++ beBytes 32 u))) := rfl

theorem batchIdOf_eq (keccak : List UInt8 → Hash) (u : Nat) : batchIdOf keccak u = idOf (keccak (71 :: beBytes 32 u)) := rfl

theorem batchNftId_eq (keccak : List UInt8 → Hash) (u : Nat) (i : U64) :
    batchNftId keccak (batchIdOf keccak u) i = idOf (keccak (66 :: ((keccak (71 :: beBytes 32 u)).toList ++ beBytes 8 i.val))) := by
  show idOf (keccak (ascii "B" ++ beBytes 32 (batchIdOf keccak u).val ++ beBytes 8 i.val)) = _
  rw [batchIdOf_eq, beBytes_idOf]
  rfl

/-- Where the ids in storage come from. -/
structure Origin (keccak : List UInt8 → Hash) (steps : List Step) (s : State) : Prop where
  nfts : ∀ id, s.nfts id ≠ none → (∃ t1 u, u < s.nextUnique ∧ id = singleId keccak t1 u) ∨
    ∃ u i, u < s.nextUnique ∧ id = batchNftId keccak (batchIdOf keccak u) i ∧ ∃ x ∈ steps, MintsItem (batchIdOf keccak u) i x
  batches : ∀ b, s.batchInfo b ≠ none → ∃ u, u < s.nextUnique ∧ b = batchIdOf keccak u

theorem Origin.grow {keccak : List UInt8 → Hash} {steps : List Step} {s s' : State} {x : Step} (h : Origin keccak steps s)
    (hn : s.nextUnique ≤ s'.nextUnique)
    (h1 : ∀ id, s'.nfts id ≠ none → s.nfts id = none → (∃ t1 u, u < s'.nextUnique ∧ id = singleId keccak t1 u) ∨
      ∃ u i, u < s'.nextUnique ∧ id = batchNftId keccak (batchIdOf keccak u) i ∧ ∃ y ∈ steps ++ [x], MintsItem (batchIdOf keccak u) i y)
    (h2 : ∀ b, s'.batchInfo b ≠ none → s.batchInfo b = none → ∃ u, u < s'.nextUnique ∧ b = batchIdOf keccak u) :
    Origin keccak (steps ++ [x]) s' := by
  constructor
  · intro id hid
    by_cases hc : s.nfts id = none
    · exact h1 id hid hc
    · rcases h.nfts id hc with ⟨t1, u, hu, e⟩ | ⟨u, i, hu, e, y, hy, hm⟩
      · exact .inl ⟨t1, u, by omega, e⟩
      · exact .inr ⟨u, i, by omega, e, y, List.mem_append_left _ hy, hm⟩
  · intro b hb
    by_cases hc : s.batchInfo b = none
    · exact h2 b hb hc
    · obtain ⟨u, hu, e⟩ := h.batches b hc
      exact ⟨u, by omega, e⟩

private theorem upd_some_none {m : U256 → Option Nft} {i id : U256} {n : Nft} {k : Option Nft} (hk : k = none → False)
    (h0 : m i = some n) (h : upd m i k id ≠ none) (hn : m id = none) : False := by
  by_cases e : id = i
  · subst e; rw [h0] at hn; cases hn
  · rw [upd_ne _ _ e] at h; exact h hn

theorem origin_run (keccak : List UInt8 → Hash) (steps : List Step) : Origin keccak steps (run keccak steps) := by
  induction steps using List.reverseRecOn with
  | nil => exact ⟨fun id h => (h rfl).elim, fun b h => (h rfl).elim⟩
  | append_singleton l x ih =>
    have v := run_view keccak l x
    rw [run_snoc]
    generalize run keccak l = s at *
    generalize step keccak s x = s' at v
    cases v with
    | same => exact ih.grow (Nat.le_refl _) (fun id h h' => (h h').elim) (fun b h h' => (h h').elim)
    | single r o y t1 auth hid href hroy hs =>
      refine ih.grow (Nat.le_succ _) (fun id h h' => ?_) (fun b h h' => (h h').elim)
      by_cases e : id = singleId keccak t1 s.nextUnique
      · exact .inl ⟨t1, s.nextUnique, Nat.lt_succ_self _, e⟩
      · have : upd s.nfts (singleId keccak t1 s.nextUnique) (some ⟨s.nextInfo, r, 0, o, false⟩) id ≠ none := h
        rw [upd_ne _ _ e] at this; exact (this h').elim
    | batchMint batch index r o m auth k info hid href hk hi hlen hm hs =>
      refine ih.grow (Nat.le_refl _) (fun id h h' => ?_) (fun b h h' => (h h').elim)
      by_cases e : id = batchNftId keccak batch index
      · obtain ⟨u, hu, hb⟩ := ih.batches batch (by rw [hk]; simp)
        refine .inr ⟨u, index, hu, hb ▸ e, x, by simp, ?_⟩
        rw [← hb]
        rcases hs with ⟨kn, rfl, -⟩ | ⟨cr, p, r', b', rfl, -⟩
        · exact ⟨rfl, rfl⟩
        · exact ⟨rfl, rfl⟩
      · have : upd s.nfts (batchNftId keccak batch index) (some ⟨(s.batchInfo batch).getD 0, r, 0, o, false⟩) id ≠ none := h
        rw [upd_ne _ _ e] at this; exact (this h').elim
    | list id m nft auth h0 =>
      exact ih.grow (Nat.le_refl _) (fun j h h' => (upd_some_none (by simp) h0 h h').elim) (fun b h h' => (h h').elim)
    | transfer id new m nft auth h0 =>
      exact ih.grow (Nat.le_refl _) (fun j h h' => (upd_some_none (by simp) h0 h h').elim) (fun b h h' => (h h').elim)
    | unlist id m nft auth h0 =>
      exact ih.grow (Nat.le_refl _) (fun j h h' => (upd_some_none (by simp) h0 h h').elim) (fun b h h' => (h h').elim)
    | create cr p supply y t1 b hx h0 h1 hid hroy hs =>
      refine ih.grow (Nat.le_succ _) (fun id h h' => (h h').elim) (fun c h h' => ?_)
      by_cases e : c = batchIdOf keccak s.nextUnique
      · exact ⟨s.nextUnique, Nat.lt_succ_self _, e⟩
      · have : upd s.batchInfo (batchIdOf keccak s.nextUnique) (some s.nextInfo) c ≠ none := h
        rw [upd_ne _ _ e] at this; exact (this h').elim
    | listBatch => exact ih.grow (Nat.le_refl _) (fun id h h' => (h h').elim) (fun b h h' => (h h').elim)
    | endFiat => exact ih.grow (Nat.le_refl _) (fun id h h' => (h h').elim) (fun b h h' => (h h').elim)
    | endEth => exact ih.grow (Nat.le_refl _) (fun id h h' => (h h').elim) (fun b h h' => (h h').elim)

/-- A single mint's id is fresh. -/
theorem single_fresh {keccak : List UInt8 → Hash} {steps : List Step} (hc : CollisionFree keccak ((run keccak steps).nextUnique + 1))
    (hn : (run keccak steps).nextUnique < 2 ^ 256) (t1 : Addr) :
    (run keccak steps).nfts (singleId keccak t1 (run keccak steps).nextUnique) = none := by
  by_contra h
  rcases (origin_run keccak steps).nfts _ h with ⟨t, u, hu, e⟩ | ⟨u, i, hu, e, -⟩
  · rw [singleId_eq, singleId_eq] at e
    have := hc _ _ (.single t1 _ (Nat.lt_succ_self _)) (.single t u (by omega)) (idOf_inj e)
    have e2 := (vec_split (List.cons.inj this).2).2
    have := @beBytes_inj 32 _ _ (by norm_num; omega) (by norm_num; omega) e2
    omega
  · rw [singleId_eq, batchNftId_eq] at e
    have := hc _ _ (.single t1 _ (Nat.lt_succ_self _)) (.item u (by omega) i.val i.isLt) (idOf_inj e)
    exact absurd (List.cons.inj this).1 (by decide)

/-- The royalties a mint may ask for: at most 16, each at most 100% and together (as added up in 32 bits) at most 100%. -/
def RoyaltiesFine (r : List Royalty) : Prop :=
  r.length ≤ 16 ∧ (∀ x ∈ r, x.ppm.val ≤ 1000000) ∧ (r.map (·.ppm.val)).sum % 2 ^ 32 ≤ 1000000

theorem validateRoyalties_fine {r : List Royalty} (h : RoyaltiesFine r) : validateRoyalties r = none := by
  unfold validateRoyalties
  rw [if_neg (by intro hc; obtain ⟨x, hx, he⟩ := List.any_eq_true.mp hc; have := h.2.1 x hx; simp [million, this] at he), if_pos (by simpa [million, pow32] using h.2.2)]

/-- **C81.** A single mint with a non-empty unused reference of at most 1024 bytes, a non-zero authority and admissible royalties always
succeeds: a new id, which did not exist, now belongs to the sender. (Collision-free hash, fewer than 2^256 ids.) -/
theorem C81_valid_single_mint_succeeds (keccak : List UInt8 → Hash) (steps : List Step) (sender : Acct) (extRef : List UInt8)
    (roy : List Royalty) (t1 : Addr) (hc : CollisionFree keccak ((run keccak steps).nextUnique + 1))
    (hn : (run keccak steps).nextUnique < 2 ^ 256) (hr : extRef ≠ []) (hl : extRef.length ≤ 1024)
    (hu : (run keccak steps).refs extRef = false) (ht : t1 ≠ Vector.replicate 20 0) (hroy : RoyaltiesFine roy) :
    ∃ id, (run keccak steps).nfts id = none ∧
      (∃ nft, (run keccak (steps ++ [.mintSingle sender extRef roy t1])).nfts id = some nft ∧ nft.owner = sender ∧ nft.extRef = extRef) ∧
      (run keccak (steps ++ [.mintSingle sender extRef roy t1])).log = (run keccak steps).log ++ [⟨.minted id extRef sender none .unknown, none⟩] := by
  have hf := single_fresh hc hn t1
  rw [run_snoc]
  generalize run keccak steps = s at *
  refine ⟨singleId keccak t1 s.nextUnique, hf, ?_⟩
  have h1 : validateMintSingle s extRef roy t1 = none := by
    unfold validateMintSingle validateRef
    rw [if_neg (by show ¬ 1024 < _; omega), if_neg ht, if_neg hr, if_neg (by simp [hu])]
    exact validateRoyalties_fine hroy
  have h2 : step keccak s (.mintSingle sender extRef roy t1) = singleState (singleId keccak t1 s.nextUnique) extRef sender roy t1 none s := by
    show transactional s (mintSingle keccak sender extRef roy t1 s) = _
    unfold mintSingle
    rw [h1]
    dsimp only
    unfold mintSingleCore
    dsimp only
    rw [hf, if_neg (by simp), if_neg (by have := hroy.1; show ¬ 16 < _; omega)]
    rfl
  rw [h2]
  exact ⟨⟨_, upd_same _ _ _, rfl, rfl⟩, rfl⟩

/-- **C81.** Creating a batch is never refused because its id exists. -/
theorem C81_batch_id_is_fresh (keccak : List UInt8 → Hash) (steps : List Step) (cr : Crypto) (sender : Acct) (p : Proof) (supply : U64)
    (roy : SVec Royalty) (t1 : Addr) (hc : CollisionFree keccak ((run keccak steps).nextUnique + 1))
    (hn : (run keccak steps).nextUnique < 2 ^ 256) :
    (createBatch cr keccak sender p supply roy t1 (run keccak steps)).2 ≠ some .batchAlreadyExists := by
  have hf : (run keccak steps).batchInfo (batchIdOf keccak (run keccak steps).nextUnique) = none := by
    by_contra h
    obtain ⟨u, hu, e⟩ := (origin_run keccak steps).batches _ h
    rw [batchIdOf_eq, batchIdOf_eq] at e
    have := hc _ _ (.batch _ (Nat.lt_succ_self _)) (.batch u (by omega)) (idOf_inj e)
    have := @beBytes_inj 32 _ _ (by norm_num; omega) (by norm_num; omega) (List.cons.inj this).2
    omega
  generalize run keccak steps = s at *
  unfold createBatch
  split; · simp
  split; · simp
  split; · simp
  split; · simp
  split
  · rename_i e he
    unfold validateRoyalties at he
    split at he
    · cases he; simp
    · split at he
      · cases he
      · cases he; simp
  · split
    · simp
    · dsimp only
      rw [hf]
      simp only [Option.isSome_none, Bool.false_eq_true, if_false]
      split <;> simp

/-- **C81.** A mint of NFT `index` of a batch is refused with "already exists" only if the history contains an earlier mint of the same
index of the same batch: different indices and different batches never get in each other's way, nor do single mints. -/
theorem C81_batch_mint_refused_only_for_same_index (keccak : List UInt8 → Hash) (steps : List Step) (batch : U256) (owner : Acct) (index : U64)
    (extRef : List UInt8) (m : Market) (auth : Auth) (hc : CollisionFree keccak (run keccak steps).nextUnique)
    (hn : (run keccak steps).nextUnique ≤ 2 ^ 256)
    (h : (mintBatchNft keccak batch owner index extRef m auth (run keccak steps)).2 = some .nftAlreadyExists) :
    ∃ x ∈ steps, MintsItem batch index x := by
  have ho := origin_run keccak steps
  generalize run keccak steps = s at *
  unfold mintBatchNft at h
  cases hv : validateMintBatch s batch extRef with
  | error e =>
    rw [hv] at h
    dsimp only at h
    cases h
    unfold validateMintBatch at hv
    split at hv; · cases hv
    split at hv; · cases hv
    split at hv; · cases hv
    split at hv; · cases hv
    split at hv; · cases hv
    unfold validateRef at hv
    split at hv
    · rename_i e he
      split at he
      · cases he; cases hv
      · split at he
        · cases he; cases hv
        · cases he
    · cases hv
  | ok info =>
    rw [hv] at h
    dsimp only at h
    have hb : s.batchInfo batch ≠ none := by
      intro hb
      unfold validateMintBatch at hv
      rw [hb] at hv
      split at hv; · cases hv
      simp at hv
    obtain ⟨u, hu, rfl⟩ := ho.batches batch hb
    by_cases hs : s.nfts (batchNftId keccak (batchIdOf keccak u) index) = none
    · rw [hs] at h
      simp only [Option.isSome_none, Bool.false_eq_true, if_false] at h
      split at h <;> simp at h
    · rcases ho.nfts _ hs with ⟨t, v, hv, e⟩ | ⟨v, i, hv, e, x, hx, hm⟩
      · rw [singleId_eq, batchNftId_eq] at e
        have := hc _ _ (.item u hu index.val index.isLt) (.single t v hv) (idOf_inj e)
        exact absurd (List.cons.inj this).1 (by decide)
      · rw [batchNftId_eq, batchNftId_eq] at e
        have := hc _ _ (.item u hu index.val index.isLt) (.item v hv i.val i.isLt) (idOf_inj e)
        obtain ⟨e1, e2⟩ := vec_split (List.cons.inj this).2
        have e3 := hc _ _ (.batch u hu) (.batch v hv) e1
        have := @beBytes_inj 32 _ _ (by norm_num; omega) (by norm_num; omega) (List.cons.inj e3).2
        have e4 : index = i := by
          apply Fin.ext
          have hi := index.isLt
          have hi2 := i.isLt
          exact @beBytes_inj 8 _ _ hi hi2 e2
        subst this e4
        exact ⟨x, hx, hm⟩

/-! ### The hypotheses can be met -/

/-- A list of at least 32 bytes as a hash. -/
def toHash (l : List UInt8) : Hash := Vector.ofFn fun i => l[i.val]?.getD 0

/-- Keep the bytes that tell the hashed strings apart. -/
def pack : List UInt8 → List UInt8
  | [] => []
  | b :: r => if b = 65 then 65 :: (r.take 20 ++ r.drop 41) else if b = 71 then 71 :: r.drop 1 else b :: ((r.drop 9).take 23 ++ r.drop 32)

def exHash (l : List UInt8) : Hash := toHash (pack l)

theorem toHash_list {l : List UInt8} (h : l.length = 32) : (toHash l).toList = l := by
  apply List.ext_getElem (by simp [h])
  intro i h1 h2
  simp [toHash, h2]

theorem drop_be (a b n : Nat) : (beBytes (a + b) n).drop a = beBytes b n := by
  rw [beBytes_add, List.drop_left' (by simp)]

theorem pack_single (t1 : Addr) (u : Nat) : pack (65 :: (t1.toList ++ beBytes 32 u)) = 65 :: (t1.toList ++ beBytes 11 u) := by
  have := drop_be 21 11 u
  simp only [pack, if_true]
  rw [List.take_left' (by simp), List.drop_append, show (41 : Nat) - t1.toList.length = 21 by simp, this]
  simp

theorem pack_batch (u : Nat) : pack (71 :: beBytes 32 u) = 71 :: beBytes 31 u := by
  simp only [pack]
  rw [if_neg (by decide), if_pos trivial, drop_be 1 31 u]

theorem pack_item (u i : Nat) :
    pack (66 :: ((exHash (71 :: beBytes 32 u)).toList ++ beBytes 8 i)) = 66 :: (beBytes 23 u ++ beBytes 8 i) := by
  unfold exHash
  rw [pack_batch, toHash_list (by simp)]
  simp only [pack]
  rw [if_neg (by decide), if_neg (by decide)]
  have h1 : (71 :: beBytes 31 u ++ beBytes 8 i).drop 9 = beBytes 23 u ++ beBytes 8 i := by
    have := drop_be 8 23 u
    simp only [List.cons_append, List.drop_succ_cons]
    rw [List.drop_append_of_le_length (by simp), this]
  have h2 : (71 :: beBytes 31 u ++ beBytes 8 i).drop 32 = beBytes 8 i := List.drop_left' (by simp)
  rw [h1, h2, List.take_left' (by simp)]

/-- There is a hash without collisions as long as fewer than 2^64 ids were handed out. -/
theorem exHash_collisionFree (n : Nat) (hn : n ≤ 2 ^ 64) : CollisionFree exHash n := by
  have inj : ∀ x y : List UInt8, (pack x).length = 32 → (pack y).length = 32 → exHash x = exHash y → pack x = pack y := by
    intro x y hx hy h
    rw [← toHash_list hx, ← toHash_list hy]
    exact congrArg Vector.toList h
  intro x y hx hy h
  have key := inj x y
    (by cases hx <;> simp only [pack_single, pack_batch, pack_item] <;> simp)
    (by cases hy <;> simp only [pack_single, pack_batch, pack_item] <;> simp) h
  cases hx with
  | single t u hu =>
    cases hy with
    | single t' u' hu' =>
      rw [pack_single, pack_single] at key
      obtain ⟨e1, e2⟩ := vec_split (List.cons.inj key).2
      have := @beBytes_inj 11 _ _ (by norm_num; omega) (by norm_num; omega) e2
      subst e1 this; rfl
    | batch u' hu' => rw [pack_single, pack_batch] at key; exact absurd (List.cons.inj key).1 (by decide)
    | item u' hu' i hi => rw [pack_single, pack_item] at key; exact absurd (List.cons.inj key).1 (by decide)
  | batch u hu =>
    cases hy with
    | single t' u' hu' => rw [pack_single, pack_batch] at key; exact absurd (List.cons.inj key).1 (by decide)
    | batch u' hu' =>
      rw [pack_batch, pack_batch] at key
      have := @beBytes_inj 31 _ _ (by norm_num; omega) (by norm_num; omega) (List.cons.inj key).2
      subst this; rfl
    | item u' hu' i hi => rw [pack_batch, pack_item] at key; exact absurd (List.cons.inj key).1 (by decide)
  | item u hu i hi =>
    cases hy with
    | single t' u' hu' => rw [pack_single, pack_item] at key; exact absurd (List.cons.inj key).1 (by decide)
    | batch u' hu' => rw [pack_batch, pack_item] at key; exact absurd (List.cons.inj key).1 (by decide)
    | item u' hu' i' hi' =>
      rw [pack_item, pack_item] at key
      obtain ⟨e1, e2⟩ := @be_split 23 _ _ _ _ (by norm_num; omega) (by norm_num; omega) (List.cons.inj key).2
      have := @beBytes_inj 8 _ _ (by norm_num; omega) (by norm_num; omega) e2
      subst e1 this; rfl

/-- Two mints by the same account with different references, the second after the first, with the hash above. -/
example : ∃ id, (run exHash [.mintSingle (exAcct 1) [9] [] exT1]).nfts id = none ∧
    (∃ nft, (run exHash [.mintSingle (exAcct 1) [9] [] exT1, .mintSingle (exAcct 1) [8] [⟨exT1, 30000⟩] exT1]).nfts id = some nft ∧
      nft.owner = exAcct 1 ∧ nft.extRef = [8]) := by
  obtain ⟨id, h1, h2, -⟩ := C81_valid_single_mint_succeeds exHash [.mintSingle (exAcct 1) [9] [] exT1] (exAcct 1) [8] [⟨exT1, 30000⟩] exT1
    (exHash_collisionFree _ (by decide +kernel)) (by decide +kernel) (by decide) (by decide) (by decide +kernel) (by decide)
    ⟨by decide, by decide, by decide⟩
  exact ⟨id, h1, h2⟩

end Verif.Nft
