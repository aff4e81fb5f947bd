import Mathlib.FieldTheory.Finite.Basic
import Verif.Lemmas.EthKeyPrime
import Verif.Lemmas.EventParsing
import Verif.Props.Eip712
import Verif.Props.Validators

/-!
# C147: a validator's Ethereum key reaches the bridge contract unchanged

The specification is the curve `y² = x³ + 7` over the field of `2^256 - 2^32 - 977` elements.
-/

namespace Verif.EthKey

/-! ### Specification -/

/-- The pair is a point of secp256k1 (other than the point at infinity), with canonical coordinates. -/
def OnCurve (x y : Nat) : Prop :=
  x < 2 ^ 256 - 2 ^ 32 - 977 ∧ y < 2 ^ 256 - 2 ^ 32 - 977 ∧
    y ^ 2 % (2 ^ 256 - 2 ^ 32 - 977) = (x ^ 3 + 7) % (2 ^ 256 - 2 ^ 32 - 977)

/-- The 64 bytes of a point: its two coordinates, big-endian. -/
def pointBytes (x y : Nat) : List UInt8 := beBytes 32 x ++ beBytes 32 y

/-- The 33 bytes of a point's compressed form: the parity of `y`, then `x`. -/
def compressedBytes (x y : Nat) : List UInt8 := (if y % 2 = 0 then 2 else 3) :: beBytes 32 x

/-! ### Proofs -/

private theorem p_lt : fieldPrime < 2 ^ 256 := by decide
private theorem p_pos : 0 < fieldPrime := by decide
private theorem p_odd : fieldPrime % 2 = 1 := by decide
private theorem p_eq : 2 ^ 256 - 2 ^ 32 - 977 = fieldPrime := rfl

instance : Fact (Nat.Prime fieldPrime) := ⟨prime_fieldPrime⟩

theorem root_eq (c : Nat) : root c = c ^ ((fieldPrime + 1) / 4) % fieldPrime := by
  unfold root; rw [powMod_eq _ _ _ _ _ (by decide), Nat.one_mul]

theorem root_lt (c : Nat) : root c < fieldPrime := by rw [root_eq]; exact Nat.mod_lt _ p_pos

private theorem cast_eq (a b : Nat) : (a : ZMod fieldPrime) = b ↔ a % fieldPrime = b % fieldPrime := ZMod.natCast_eq_natCast_iff' _ _ _

/-- The root of a square squares to it. -/
theorem root_sq (y c : Nat) (h : y ^ 2 % fieldPrime = c % fieldPrime) : root c ^ 2 % fieldPrime = c % fieldPrime := by
  rw [← cast_eq] at h ⊢
  have hr : ((root c : Nat) : ZMod fieldPrime) = (c : ZMod fieldPrime) ^ ((fieldPrime + 1) / 4) := by
    rw [← Nat.cast_pow, cast_eq, root_eq, Nat.mod_mod]
  push_cast at h ⊢
  rw [hr, ← h, ← pow_mul, ← pow_mul]
  have e : 2 * ((fieldPrime + 1) / 4 * 2) = fieldPrime + 1 := by decide
  rw [e, pow_succ, ZMod.pow_card, pow_two]

/-- Two roots of the same number are equal or opposite. -/
theorem roots (y z : Nat) (hy : y < fieldPrime) (hz : z < fieldPrime) (h : y ^ 2 % fieldPrime = z ^ 2 % fieldPrime) :
    y = z ∨ y = (fieldPrime - z) % fieldPrime := by
  rw [← cast_eq] at h
  push_cast at h
  rcases sq_eq_sq_iff_eq_or_eq_neg.1 h with h | h
  · left; rw [cast_eq, Nat.mod_eq_of_lt hy, Nat.mod_eq_of_lt hz] at h; exact h
  · right
    have : ((fieldPrime - z : Nat) : ZMod fieldPrime) = - (z : ZMod fieldPrime) := by
      rw [Nat.cast_sub (le_of_lt hz)]; simp
    rw [← this, cast_eq, Nat.mod_eq_of_lt hy] at h; exact h

/-- No point has `y = 0`: minus seven is not a cube. -/
theorem no_zero (x : Nat) : (x ^ 3 + 7) % fieldPrime ≠ 0 := by
  intro h
  have h0 : (((x ^ 3 + 7 : Nat)) : ZMod fieldPrime) = ((0 : Nat) : ZMod fieldPrime) := by rw [cast_eq, h]; simp
  have h7 : ((x ^ 3 : Nat) : ZMod fieldPrime) = ((fieldPrime - 7 : Nat) : ZMod fieldPrime) := by
    have e7 : ((fieldPrime - 7 : Nat) : ZMod fieldPrime) = -7 := by rw [Nat.cast_sub (by decide)]; simp
    rw [e7]; push_cast at h0 ⊢; exact eq_neg_of_add_eq_zero_left h0
  have hne : (x : ZMod fieldPrime) ≠ 0 := by
    intro hx
    have : ((fieldPrime - 7 : Nat) : ZMod fieldPrime) = ((0 : Nat) : ZMod fieldPrime) := by rw [← h7]; push_cast; rw [hx]; simp
    rw [cast_eq] at this
    exact absurd this (by decide)
  have hf := ZMod.pow_card_sub_one_eq_one hne
  have e3 : fieldPrime - 1 = 3 * ((fieldPrime - 1) / 3) := by decide
  rw [e3, pow_mul, ← Nat.cast_pow, h7, ← Nat.cast_pow, ← Nat.cast_one (R := ZMod fieldPrime), cast_eq,
    ← Nat.one_mul ((fieldPrime - 7) ^ _), ← powMod_eq fieldPrime 256 _ _ _ (by decide)] at hf
  exact absurd hf (by decide +kernel)

private theorem negated_parity (y : Nat) (h0 : 0 < y) (h : y < fieldPrime) : (fieldPrime - y) % fieldPrime = fieldPrime - y ∧
    (fieldPrime - y) % 2 ≠ y % 2 := by
  have := p_odd
  refine ⟨Nat.mod_eq_of_lt (by omega), by omega⟩

private theorem withParity_sq (odd : Bool) (y : Nat) (h : y < fieldPrime) : withParity odd y ^ 2 % fieldPrime = y ^ 2 % fieldPrime := by
  unfold withParity
  split
  · rfl
  · rw [← cast_eq]
    push_cast
    rw [ZMod.natCast_mod, Nat.cast_sub (le_of_lt h)]
    simp

private theorem withParity_lt (odd : Bool) (y : Nat) (h : y < fieldPrime) : withParity odd y < fieldPrime := by
  unfold withParity
  split
  · exact h
  · exact Nat.mod_lt _ p_pos

private theorem withParity_parity (odd : Bool) (y : Nat) (h0 : 0 < y) (h : y < fieldPrime) : (withParity odd y % 2 = 1) ↔ odd = true := by
  obtain ⟨e, n⟩ := negated_parity y h0 h
  unfold withParity
  split
  case isTrue g => rw [← g]; simp
  case isFalse g =>
    rw [e]
    cases odd <;> simp at g ⊢ <;> omega

private theorem onCurve_iff (x y : Nat) : OnCurve x y ↔ x < fieldPrime ∧ y < fieldPrime ∧ y ^ 2 % fieldPrime = (x ^ 3 + 7) % fieldPrime :=
  Iff.rfl

attribute [local irreducible] root powMod fieldPrime

private theorem point_parity {x y : Nat} (h : OnCurve x y) : 0 < y := by
  obtain ⟨_, _, h⟩ := (onCurve_iff _ _).1 h
  rcases Nat.eq_zero_or_pos y with e | e
  · subst e; exact absurd h.symm (by simpa using no_zero x)
  · exact e

private theorem list33 (k : Bytes 33) : k.toList = k[0] :: k.toList.drop 1 := by
  have hl : k.toList.length = 33 := by simp
  rcases hk : k.toList with _ | ⟨a, l⟩
  · rw [hk] at hl; simp at hl
  · have : k[0] = a := by
      have e : k.toList[0]? = some a := by rw [hk]; rfl
      have e2 : k.toList[0]? = some k[0] := by simp
      rw [e] at e2; injection e2 with e2; exact e2.symm
    rw [this]; rfl

private theorem be_x (k : Bytes 33) : beBytes 32 (beVal (k.toList.drop 1)) = k.toList.drop 1 := by
  have hl : (k.toList.drop 1).length = 32 := by simp
  unfold beBytes beVal
  have := leBytes_leVal (k.toList.drop 1).reverse
  rw [List.length_reverse, hl] at this
  rw [this, List.reverse_reverse]

private theorem pow256 : (256 : Nat) ^ 32 = 2 ^ 256 := by norm_num

/-- **C147, the bridge is sent exactly the point of the stored key.** A 33 byte key is turned into 64 bytes exactly if it is the
compressed form of a point of the curve, and the 64 bytes are then that point's two coordinates; every other key is refused. -/
theorem C147_sent_bytes_are_the_point (k : Bytes 33) (m : Bytes 64) :
    decompress k = some m ↔ ∃ x y, OnCurve x y ∧ k.toList = compressedBytes x y ∧ m.toList = pointBytes x y := by
  constructor
  · intro h
    unfold decompress at h
    dsimp only at h
    split at h
    · cases h
    case isFalse ht =>
    split at h
    · cases h
    case isFalse hx =>
    split at h
    · cases h
    case isFalse hr =>
    injection h with h
    subst h
    push Not at hx hr
    have hc := root_lt ((beVal (k.toList.drop 1) ^ 3 + 7) % fieldPrime)
    have hpos : 0 < root ((beVal (k.toList.drop 1) ^ 3 + 7) % fieldPrime) := by
      rcases Nat.eq_zero_or_pos (root ((beVal (k.toList.drop 1) ^ 3 + 7) % fieldPrime)) with e | e
      · rw [e] at hr; exact absurd hr.symm (by simpa using no_zero (beVal (k.toList.drop 1)))
      · exact e
    refine ⟨beVal (k.toList.drop 1), withParity (k[0] == 3) (root ((beVal (k.toList.drop 1) ^ 3 + 7) % fieldPrime)), (onCurve_iff _ _).2 ⟨hx,
      withParity_lt _ _ hc, ?_⟩, ?_, ?_⟩
    · rw [withParity_sq _ _ hc, Nat.pow_two, hr]
    · have hpar := withParity_parity (k[0] == 3) _ hpos hc
      unfold compressedBytes
      rw [be_x]
      refine (list33 k).trans ?_
      congr 1
      by_cases e2 : k[0] = 2
      · rw [e2] at hpar ⊢
        rw [if_pos]
        have : ¬ ((2 : UInt8) == 3) = true := by decide
        by_contra g
        exact this (hpar.1 (by omega))
      · have e3 : k[0] = 3 := by by_contra g; exact ht ⟨e2, g⟩
        rw [e3] at hpar ⊢
        rw [if_neg]
        have := hpar.2 (by decide)
        omega
    · rfl
  · rintro ⟨x, y, hp, hk, hm⟩
    have hy0 := point_parity hp
    obtain ⟨hx, hy, he⟩ := (onCurve_iff _ _).1 hp
    have hk0 := list33 k
    have htag : k[0] = (if y % 2 = 0 then 2 else 3) ∧ k.toList.drop 1 = beBytes 32 x := by
      rw [hk] at hk0
      unfold compressedBytes at hk0
      injection hk0 with a b
      refine ⟨a.symm, ?_⟩
      rw [hk]; rfl
    have hxv : beVal (k.toList.drop 1) = x := by
      rw [htag.2, beVal_beBytes _ _ (by rw [pow256]; exact lt_trans hx p_lt)]
    have hsq := root_sq y ((x ^ 3 + 7) % fieldPrime) (by rw [he, Nat.mod_mod])
    rw [Nat.mod_mod] at hsq
    have hc := root_lt ((x ^ 3 + 7) % fieldPrime)
    have hpos : 0 < root ((x ^ 3 + 7) % fieldPrime) := by
      rcases Nat.eq_zero_or_pos (root ((x ^ 3 + 7) % fieldPrime)) with e | e
      · rw [e] at hsq; exact absurd hsq.symm (by simpa using no_zero x)
      · exact e
    have hyw : withParity (k[0] == 3) (root ((x ^ 3 + 7) % fieldPrime)) = y := by
      have hw := withParity_lt (k[0] == 3) _ hc
      have hws := withParity_sq (k[0] == 3) _ hc
      have hwp := withParity_parity (k[0] == 3) _ hpos hc
      rcases roots _ _ hw hy (by rw [hws, hsq, he]) with e | e
      · exact e
      · exfalso
        obtain ⟨e1, n⟩ := negated_parity y hy0 hy
        rw [e1] at e
        rw [e, htag.1] at hwp
        have := p_odd
        by_cases g : y % 2 = 0
        · rw [if_pos g] at hwp
          have := hwp.1 (by omega)
          exact absurd this (by decide)
        · rw [if_neg g] at hwp
          have := hwp.2 (by decide)
          omega
    have c1 : ¬ (k[0] ≠ 2 ∧ k[0] ≠ 3) := by rw [htag.1]; split <;> simp
    have c2 : ¬ fieldPrime ≤ x := by omega
    have c3 : ¬ (root ((x ^ 3 + 7) % fieldPrime) * root ((x ^ 3 + 7) % fieldPrime) % fieldPrime ≠ (x ^ 3 + 7) % fieldPrime) := by
      rw [← Nat.pow_two, hsq]; simp
    unfold decompress
    dsimp only
    subst hxv
    rw [if_neg c1, if_neg c2, if_neg c3]
    refine congrArg some (Vector.toList_inj.1 ?_)
    rw [hm]
    show beBytes 32 (beVal (k.toList.drop 1)) ++ beBytes 32 (withParity (k[0] == 3) (root _)) = _
    rw [hyw]; rfl

/-- **C147, every point has one compressed form, and compressing is undone.** The 64 bytes of a point of the curve compress to its
33 byte form, and from there come back unchanged. -/
theorem C147_points_are_accepted (x y : Nat) (hp : OnCurve x y) (m : Bytes 64) (hm : m.toList = pointBytes x y) :
    (compress m).toList = compressedBytes x y ∧ decompress (compress m) = some m := by
  have hl : m.toList.length = 64 := by simp
  have hc : (compress m).toList = compressedBytes x y := by
    have e : (compress m).toList = (if m[63] % 2 = 0 then 2 else 3) :: m.toList.take 32 := rfl
    rw [e]
    have ht : m.toList.take 32 = beBytes 32 x := by rw [hm]; unfold pointBytes; simp
    rw [ht]
    have h63 : m[63] = UInt8.ofNat (y % 256) := by
      have e1 : m.toList[63]? = some m[63] := by simp
      rw [hm] at e1
      unfold pointBytes beBytes at e1
      rw [List.getElem?_append_right (by simp)] at e1
      simp [leBytes] at e1
      simp [← e1]
    have hpar : (m[63] % 2 = 0) ↔ y % 2 = 0 := by
      rw [h63, ← UInt8.toNat_inj]
      simp
    unfold compressedBytes
    by_cases g : y % 2 = 0
    · rw [if_pos (hpar.2 g), if_pos g]
    · rw [if_neg (fun h => g (hpar.1 h)), if_neg g]
  exact ⟨hc, (C147_sent_bytes_are_the_point _ _).2 ⟨x, y, hp, hc, hm⟩⟩

private theorem point_inj {x y x' y' : Nat} (h : OnCurve x y) (h' : OnCurve x' y') (e : pointBytes x y = pointBytes x' y') :
    x = x' ∧ y = y' := by
  obtain ⟨hx, hy, _⟩ := (onCurve_iff _ _).1 h
  obtain ⟨hx', hy', _⟩ := (onCurve_iff _ _).1 h'
  have hp := p_lt
  obtain ⟨a, b⟩ := be_split (by rw [pow256]; omega) (by rw [pow256]; omega) e
  exact ⟨a, beBytes_inj (by rw [pow256]; omega) (by rw [pow256]; omega) b⟩

/-- **C147, no two keys are sent as the same bytes.** -/
theorem C147_different_keys_are_sent_differently (k k' : Bytes 33) (m : Bytes 64) (h : decompress k = some m)
    (h' : decompress k' = some m) : k = k' := by
  obtain ⟨x, y, hp, hk, hm⟩ := (C147_sent_bytes_are_the_point _ _).1 h
  obtain ⟨x', y', hp', hk', hm'⟩ := (C147_sent_bytes_are_the_point _ _).1 h'
  obtain ⟨rfl, rfl⟩ := point_inj hp hp' (hm.symm.trans hm')
  exact Vector.toList_inj.1 (hk.trans hk'.symm)

section
open Verif.Eip712

/-- The two requests of the validators' pallet that name a key. -/
def request (adding : Bool) (m : Bytes 64) (account : Hash) : Call :=
  if adding then .addAuthor m account else .removeAuthor account m

/-- **C147, a confirmation covers one key and one account.** Take two requests to add or to remove a validator, each built from a key in
the chain's own 33 byte form. If the validators sign the same hash for both, they are the same kind of request for the same key and the
same account, unless a concrete collision of Keccak has been found. -/
theorem C147_requests_name_the_key (keccak : List UInt8 → Hash) (lossy : List UInt8 → List UInt8) (p q : Instance) (adding adding' : Bool)
    (k k' : Bytes 33) (m m' : Bytes 64) (a a' : Hash) (e i e' i' : Nat) (hp : p.chainId < 2 ^ 64) (hq : q.chainId < 2 ^ 64)
    (he : e < 2 ^ 64) (hi : i < 2 ^ 32) (he' : e' < 2 ^ 64) (hi' : i' < 2 ^ 32) (hk : decompress k = some m)
    (hk' : decompress k' = some m')
    (h : functionHash keccak lossy p (request adding m a).name ((request adding m a).extended e i) =
      functionHash keccak lossy q (request adding' m' a').name ((request adding' m' a').extended e' i')) :
    Collision keccak (hashed keccak lossy p ((request adding m a).msg e i)) (hashed keccak lossy q ((request adding' m' a').msg e' i')) ∨
      (adding = adding' ∧ k = k' ∧ a = a') := by
  have hr : ∀ b n c, (request b n c).InRange := by intro b n c; cases b <;> simp [request, Call.InRange]
  rcases C85_requests_do_not_share_signatures keccak lossy p q _ _ e i e' i' hp hq (hr _ _ _) (hr _ _ _) he hi he' hi' h with h | ⟨h, _⟩
  · exact .inl h
  · right
    cases adding <;> cases adding' <;> simp [request] at h
    · obtain ⟨rfl, rfl⟩ := h; exact ⟨rfl, C147_different_keys_are_sent_differently k k' m hk hk', rfl⟩
    · obtain ⟨rfl, rfl⟩ := h; exact ⟨rfl, C147_different_keys_are_sent_differently k k' m hk hk', rfl⟩

end

section
open Verif.Validators

/-- What the environment of a history says about keys agrees with `good`: an addition finds that the key decompresses only if it does,
and root rotates only to keys that decompress (which the code does not check). -/
def KeysGood (good : Nat → Prop) : Step → Prop
  | .add _ k _ _ _ keyOk _ => keyOk = true → good k
  | .rotate _ _ new => good new
  | _ => True

private theorem removeKey_rev {s : State} {a b k : Nat} (h : (removeKey s a).rev b = some k) : s.rev b = some k := by
  unfold removeKey at h
  split at h
  · exact h
  · dsimp only at h
    rw [upd_apply] at h
    split at h
    · cases h
    · exact h

private theorem cleanup_rev {s : State} {a i b k : Nat} {d : Bool} (h : (cleanupRegistration s a i d).rev b = some k) :
    s.rev b = some k := by
  cases d <;> exact removeKey_rev h

private theorem processResult_rev {s : State} {tx : Nat} {m ok st : Bool} {b k : Nat} (h : (processResult s tx m ok st).1.rev b = some k) :
    s.rev b = some k := by
  unfold processResult at h
  split at h
  · exact h
  · split at h
    · exact h
    · dsimp only at h
      split at h
      · exact h
      · split at h
        · split at h
          · have := cleanup_rev h; exact this
          · exact h
        · split at h
          · unfold completeRegistration at h
            split at h
            · have := cleanup_rev h; exact this
            · dsimp only at h
              split at h
              · have := cleanup_rev h; exact this
              · exact h
          · split at h
            · unfold completeDeregistration at h
              split at h
              · exact h
              · dsimp only at h; have := removeKey_rev h; exact this
            · exact h

private theorem newSession_rev (act dis : List Nat) (ex : Nat → Bool) (vis : List (Nat × Nat)) (s : State) :
    (newSession act dis ex vis s).rev = s.rev := by
  induction vis generalizing s with
  | nil => rfl
  | cons v vs ih =>
    obtain ⟨a, i⟩ := v
    unfold newSession
    split
    · exact ih s
    · split
      · split
        · rw [ih]
        · exact ih s
      · split
        · split
          · dsimp only
            split
            · rw [ih]
            · rfl
          · exact ih s
        · split
          · rw [ih]
          · exact ih s

private theorem commit_rev {s : State} {r : State × Option Err} {b k : Nat} (h : (commit s r).rev b = some k) :
    s.rev b = some k ∨ (r.2 = none ∧ r.1.rev b = some k) := by
  unfold commit at h
  split at h
  · exact .inr ⟨rfl, h⟩
  · exact .inl h

private theorem step_rev (good : Nat → Prop) (minV : Nat) (s : State) (x : Step) (hx : KeysGood good x)
    (hs : ∀ b k, s.rev b = some k → good k) (b k : Nat) (h : (step minV s x).rev b = some k) : good k := by
  cases x with
  | add a key d sk st ko bo =>
    rcases commit_rev h with h | ⟨e, h⟩
    · exact hs b k h
    · unfold addCollator at e h
      repeat' split at e
      all_goals first | (cases e; done) | skip
      rename_i h1 h2 h3 h4 h5 h6 h7 h8 h9
      rw [if_neg h1, if_neg h2, if_neg h3, if_neg h4, if_neg h5, if_neg h6, if_neg h7, if_neg h8, if_neg h9] at h
      have h : upd s.rev a (some key) b = some k := h
      rw [upd_apply] at h
      split at h
      · injection h with h; subst h; exact hx (by simpa using h8)
      · exact hs b k h
  | remove a ko bo =>
    rcases commit_rev h with h | ⟨e, h⟩
    · exact hs b k h
    · unfold removeValidator at h
      repeat' split at h
      all_goals exact hs b k h
  | rotate a o n =>
    rcases commit_rev h with h | ⟨e, h⟩
    · exact hs b k h
    · unfold rotateKey at h
      repeat' split at h
      all_goals first | exact hs b k h | skip
      dsimp only at h
      rw [upd_apply] at h
      split at h
      · injection h with h; subst h; exact hx
      · exact hs b k h
  | otherPublish => exact hs b k h
  | bridgeResult tx m ok st =>
    rcases commit_rev h with h | ⟨e, h⟩
    · exact hs b k h
    · exact hs b k (processResult_rev h)
  | bridgeDropped tx m => exact hs b k (processResult_rev h)
  | session act dis ex vis => exact hs b k (by rw [← newSession_rev act dis ex vis s]; exact h)

/-- **C147, a registered key can always be sent.** In every history in which the genesis keys decompress and root rotates only to keys
that decompress, the key registered for any account decompresses; so a removal is never refused for the key of the validator. -/
theorem C147_registered_keys_decompress (good : Nat → Prop) (minV : Nat) (vs : List (Nat × Nat)) (hg : ∀ v ∈ vs, good v.2)
    (steps : List Step) (hs : ∀ x ∈ steps, KeysGood good x) (a k : Nat) (h : (run minV (genesis vs) steps).rev a = some k) : good k := by
  induction steps using List.reverseRecOn generalizing a k with
  | nil =>
    have h : (vs.find? fun v => v.1 == a).map Prod.snd = some k := h
    obtain ⟨v, hv, rfl⟩ := Option.map_eq_some_iff.1 h
    exact hg v (List.mem_of_find?_eq_some hv)
  | append_singleton xs x ih =>
    unfold run at h
    rw [List.foldl_append] at h
    exact step_rev good minV _ x (hs x (by simp)) (fun b k h => ih (fun y hy => hs y (by simp [hy])) b k h) a k h

/-- **C147, a removal is not refused for the key.** In such a history a removal whose key check agrees with `good` is never refused
because the key does not decompress. -/
theorem C147_removal_not_refused_for_the_key (good : Nat → Prop) (minV : Nat) (vs : List (Nat × Nat)) (hg : ∀ v ∈ vs, good v.2)
    (steps : List Step) (hs : ∀ x ∈ steps, KeysGood good x) (a : Nat) (keyOk bridgeOk : Bool)
    (hk : ∀ k, (run minV (genesis vs) steps).rev a = some k → good k → keyOk = true) :
    (removeValidator minV (run minV (genesis vs) steps) a keyOk bridgeOk).2 ≠ some .invalidKey := by
  intro h
  unfold removeValidator at h
  split at h
  · cases h
  · split at h
    · cases h
    · split at h
      · cases h
      · split at h
        · cases h
        · rename_i k e
          rw [hk k e (C147_registered_keys_decompress good minV vs hg steps hs a k e)] at h
          rw [if_neg (by simp)] at h
          split at h <;> cases h

/-- A history with an addition and a rotation that meets the hypotheses: the good keys are those below 900. -/
example : (∀ v ∈ ([(1, 101), (2, 102), (3, 103)] : List (Nat × Nat)), v.2 < 900) ∧
    (∀ x ∈ [Step.add 4 104 1000 true true true true, .bridgeResult 0 true true true, .rotate 2 102 202], KeysGood (· < 900) x) ∧
    (run 2 (genesis [(1, 101), (2, 102), (3, 103)])
      [.add 4 104 1000 true true true true, .bridgeResult 0 true true true, .rotate 2 102 202]).rev 2 = some 202 := by
  refine ⟨by decide, ?_, by decide +kernel⟩
  intro x hx
  simp only [List.mem_cons, List.not_mem_nil, or_false] at hx
  rcases hx with rfl | rfl | rfl <;> simp [KeysGood]

/-- The hypothesis on rotations is needed: root may rotate to a key that does not decompress, and the validator can then not be removed. -/
example : (removeValidator 2 (run 2 (genesis [(1, 101), (2, 102), (3, 103)]) [.rotate 2 102 999]) 2 false true).2 = some .invalidKey := by
  decide +kernel

end

/-! ### Examples -/

/-- The generator of the curve. -/
def gx : Nat := 0x79BE667EF9DCBBAC55A06295CE870B07029BFCDB2DCE28D959F2815B16F81798
/-- The generator of the curve. -/
def gy : Nat := 0x483ADA7726A3C4655DA4FBFC0E1108A8FD17B448A68554199C47D08FFB10D4B8

example : OnCurve gx gy := by unfold OnCurve; decide +kernel
example : decompress ⟨(2 :: beBytes 32 gx).toArray, by simp⟩ = some ⟨(beBytes 32 gx ++ beBytes 32 gy).toArray, by simp⟩ := by
  decide +kernel
/-- The other point with this `x`. -/
example : OnCurve gx (2 ^ 256 - 2 ^ 32 - 977 - gy) ∧ decompress ⟨(3 :: beBytes 32 gx).toArray, by simp⟩ =
    some ⟨(beBytes 32 gx ++ beBytes 32 (2 ^ 256 - 2 ^ 32 - 977 - gy)).toArray, by simp⟩ := by
  unfold OnCurve; decide +kernel
/-- Keys that are refused: no point has `x = 5`; `x` is not below the prime; the first byte is not 2 or 3. -/
example : decompress ⟨(2 :: beBytes 32 5).toArray, by simp⟩ = none ∧ decompress ⟨(2 :: beBytes 32 (2 ^ 256 - 1)).toArray, by simp⟩ = none ∧
    decompress ⟨(4 :: beBytes 32 gx).toArray, by simp⟩ = none := by decide +kernel

end Verif.EthKey
