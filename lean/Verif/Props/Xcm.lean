import Verif.Model.Xcm
import Verif.Props.Ledger

/-!
# C121, C122, C123: messages from the relay chain and from sibling parachains
-/

namespace Verif.Xcm

open Verif.Ledger
open Verif.Staking (Full EPar EReach CovAt)

/-! ### Specification -/

/-- The accounts a sender owns here: a sibling has one; the relay chain has its own and can speak for every parachain. -/
def Owns (s : Sender) (a : Acct) : Prop :=
  match s with
  | .relay => a = parentAccount ∨ ∃ id, id < 2 ^ 32 ∧ a = siblingAccount id
  | .sibling id _ => a = siblingAccount id

/-- All native tokens: the ledger's, and those trapped. -/
def XSupply (X : XSys) (n : Nat) : Prop := ∃ m, Supply X.S m ∧ n = m + (X.trapped.map Prod.snd).sum

/-- The runtime's accounts (`runtime/avn/src/configs/mod.rs:276-279, 423`). -/
def RuntimeAccounts (C : Cfg) : Prop := C.E.pot = C.N.num potAccount ∧ C.treasury = treasuryAccount

/-- The state of the executor before the last instruction of a program. -/
def before (C : Cfg) (X : XSys) (s : Sender) (prog : List Instr) : Exec := execAll C ⟨X, some s.loc, 0⟩ prog

/-- Native tokens an instruction declares as deposited in a reserve. -/
def declared : Instr → Nat
  | .reserveDeposited ⟨id, .fungible n⟩ => if id = ⟨1, []⟩ then n else 0
  | _ => 0

/-- No call of the message spends from the pot (it has no key). -/
def KeylessProg (C : Cfg) (prog : List Instr) : Prop := ∀ k st S, Instr.transact k st ∈ prog → payer C S st ≠ some C.E.pot

/-- Reachable states, with messages. -/
inductive XReach (C : Cfg) : XSys → Prop
  | start (S : Sys) : Start C S → XReach C ⟨S, []⟩
  | ledger (X : XSys) (st : Ledger.Step) : XReach C X → Keyless C X.S st → XReach C (step C X (.ledger st))
  | message (X : XSys) (s : Sender) (prog : List Instr) : XReach C X → KeylessProg C prog → XReach C (step C X (.message s prog))

/-! ### Accounts -/

theorem padded_toList (b : List UInt8) (h : b.length ≤ 32) : (padded b).toList = b ++ List.replicate (32 - b.length) 0 := by
  show (b ++ List.replicate 32 0).take 32 = _
  rw [List.take_append, List.take_of_length_le h, List.take_replicate]
  congr 2
  omega

theorem padded_inj {b c : List UInt8} (hb : b.length ≤ 32) (h : b.length = c.length) (e : padded b = padded c) : b = c := by
  have := congrArg Vector.toList e
  rw [padded_toList _ hb, padded_toList _ (h ▸ hb)] at this
  exact (List.append_inj this h).1

theorem padded_head {b c : List UInt8} {x y : UInt8} (hb : b.length < 32) (hc : c.length < 32) (e : padded (x :: b) = padded (y :: c)) : x = y := by
  have := congrArg Vector.toList e
  rw [padded_toList _ (by simp; omega), padded_toList _ (by simp; omega)] at this
  simp only [List.cons_append, List.cons.injEq] at this
  exact this.1

/-- **C122** (accounts): the accounts owned from outside are different from each other, and none is the staking pot or the treasury. -/
theorem C122_accounts_distinct (i j : Nat) (hi : i < 2 ^ 32) (hj : j < 2 ^ 32) :
    (siblingAccount i = siblingAccount j → i = j) ∧ siblingAccount i ≠ parentAccount ∧
    (∀ a ∈ [parentAccount, siblingAccount i], a ≠ potAccount ∧ a ≠ treasuryAccount) := by
  have hs : ∀ (x : UInt8) (b : List UInt8), b.length < 32 → x ≠ 115 → siblingAccount i ≠ padded (x :: b) := by
    intro x b hb hx e
    have e' : padded (115 :: ([105, 98, 108] ++ leBytes 4 i)) = padded (x :: b) := e
    exact hx (padded_head (by simp) hb e').symm
  refine ⟨fun e => ?_, hs 80 _ (by decide) (by decide), ?_⟩
  · have := padded_inj (by simp) (by simp) e
    have := List.append_cancel_left this
    exact leBytes_inj (k := 4) (by simpa using hi) (by simpa using hj) this
  · intro a ha
    rcases List.mem_cons.1 ha with rfl | ha
    · exact ⟨by decide +kernel, by decide +kernel⟩
    · rw [List.mem_singleton.1 ha]
      exact ⟨hs 109 _ (by decide) (by decide), hs 109 _ (by decide) (by decide)⟩

/-! ### One instruction -/

/-- The origin register: a place inside the sender. -/
def OriginOk (s : Sender) (o : Option Location) : Prop := ∀ l, o = some l → ∃ js, l = ⟨1, s.loc.interior ++ js⟩

theorem Sender.parents (s : Sender) : s.loc.parents = 1 := by cases s <;> rfl

theorem owner {s : Sender} {l : Location} {a : Acct} (h : ∃ js, l = ⟨1, s.loc.interior ++ js⟩) (ha : toAccount l = some a) : Owns s a := by
  obtain ⟨js, rfl⟩ := h
  unfold toAccount at ha
  cases s with
  | relay =>
    by_cases e : (⟨1, js⟩ : Location) = relayLocation
    · have : (⟨1, Sender.relay.loc.interior ++ js⟩ : Location) = relayLocation := e
      rw [if_pos this] at ha
      injection ha with ha
      exact .inl ha.symm
    · have : (⟨1, Sender.relay.loc.interior ++ js⟩ : Location) ≠ relayLocation := e
      rw [if_neg this] at ha
      have hl : Sender.relay.loc.interior ++ js = js := rfl
      rw [hl] at ha
      match js, ha with
      | [.parachain id], ha =>
        replace ha : (if id < 2 ^ 32 then some (siblingAccount id) else none) = some a := ha
        by_cases h : id < 2 ^ 32
        · rw [if_pos h] at ha; injection ha with ha; exact .inr ⟨id, h, ha.symm⟩
        · rw [if_neg h] at ha; cases ha
      | [], ha => simp at ha
      | [.accountId32 _ _], ha => simp at ha
      | [.other _], ha => simp at ha
      | _ :: _ :: _, ha => simp at ha
  | sibling id hid =>
    have hl : (Sender.sibling id hid).loc.interior ++ js = .parachain id :: js := rfl
    rw [hl] at ha
    rw [if_neg (by simp [relayLocation])] at ha
    cases js with
    | nil =>
      replace ha : (if id < 2 ^ 32 then some (siblingAccount id) else none) = some a := ha
      rw [if_pos hid] at ha
      injection ha with ha
      exact ha.symm
    | cons j js => simp at ha

/-- What a successful instruction did. -/
inductive Did (C : Cfg) (e : Exec) : Instr → Exec → Prop
  | withdraw (a : Asset) (l : Location) (n : Nat) (S : Sys) (ho : e.origin = some l) (hn : nativeAmount a = some n)
      (ht : takeFrom C e.X.S l n = some S) : Did C e (.withdraw a) ⟨⟨S, e.X.trapped⟩, e.origin, e.holding + n⟩
  | reserve (a : Asset) (ho : e.origin = some a.id) : Did C e (.reserveDeposited a) ⟨e.X, e.origin, e.holding + (nativeAmount a).getD 0⟩
  | claim (a : Asset) (l : Location) (n : Nat) (ho : e.origin = some l) (hn : nativeAmount a = some n) (hm : (l, n) ∈ e.X.trapped) :
      Did C e (.claim a) ⟨⟨e.X.S, e.X.trapped.erase (l, n)⟩, e.origin, e.holding + n⟩
  | clear : Did C e .clearOrigin ⟨e.X, none, e.holding⟩
  | descend (js : List Junction) (l : Location) (ho : e.origin = some l) :
      Did C e (.descendOrigin js) ⟨e.X, some ⟨l.parents, l.interior ++ js⟩, e.holding⟩
  | deposit (a : Asset) (b : Location) (n : Nat) (S : Sys) (hn : nativeAmount a = some n) (hle : n ≤ e.holding)
      (hg : giveTo C e.X.S b n = some S) : Did C e (.deposit a b) ⟨⟨S, e.X.trapped⟩, e.origin, e.holding - n⟩
  | transfer (a : Asset) (b l : Location) (n : Nat) (S1 S : Sys) (ho : e.origin = some l) (hn : nativeAmount a = some n)
      (ht : takeFrom C e.X.S l n = some S1) (hg : giveTo C S1 b n = some S) : Did C e (.transfer a b) ⟨⟨S, e.X.trapped⟩, e.origin, e.holding⟩
  | dropped (fee : Nat) (hle : fee ≤ e.holding) : Did C e (.buyExecution fee none) ⟨e.X, e.origin, e.holding - fee⟩
  | paid (fee : Nat) (w : Acct) (hle : fee ≤ e.holding) : Did C e (.buyExecution fee (some w))
      ⟨⟨setFree e.X.S (C.N.num w) (e.X.S.F.led.free (C.N.num w) + fee), e.X.trapped⟩, e.origin, e.holding - fee⟩
  | sendAway (a : Asset) (n : Nat) (hn : nativeAmount a = some n) (hle : n ≤ e.holding) : Did C e (.sendAway a) ⟨e.X, e.origin, e.holding - n⟩
  | transact (k : OriginKind) (st : Ledger.Step) (l : Location) (o : Origin) (ho : e.origin = some l) (hc : toOrigin l k = some o)
      (hm : mayCall C.N o st = true) : Did C e (.transact k st) ⟨⟨Ledger.step C e.X.S st, e.X.trapped⟩, e.origin, e.holding⟩

theorem exec_did {C : Cfg} {e e' : Exec} {i : Instr} (he : exec C e i = some e') : Did C e i e' := by
  cases i with
  | withdraw a =>
    simp only [exec] at he
    split at he
    · rename_i l n ho hn
      obtain ⟨S, ht, rfl⟩ := Option.map_eq_some_iff.1 he
      exact .withdraw a l n S ho hn ht
    · cases he
  | reserveDeposited a =>
    simp only [exec] at he
    split at he
    · rename_i l ho
      split at he
      · rename_i hr
        injection he with he; subst he
        have : a.id = l := by simpa [isReserve] using hr
        exact .reserve a (by rw [ho, this])
      · cases he
    · cases he
  | teleported a =>
    simp only [exec, isTeleporter] at he
    split at he <;> simp at he
  | claim a =>
    simp only [exec] at he
    split at he
    · rename_i l n ho hn
      split at he
      · rename_i hm
        injection he with he; subst he
        exact .claim a l n ho hn hm
      · cases he
    · cases he
  | clearOrigin =>
    simp only [exec] at he
    injection he with he; subst he
    exact .clear
  | descendOrigin js =>
    simp only [exec] at he
    split at he
    · rename_i l hl
      injection he with he; subst he
      exact .descend js l hl
    · cases he
  | aliasOrigin l => simp only [exec] at he; cases he
  | universalOrigin j => simp only [exec] at he; cases he
  | deposit a b =>
    simp only [exec] at he
    split at he
    · rename_i n hn
      split at he
      · rename_i hle
        obtain ⟨S, hg, rfl⟩ := Option.map_eq_some_iff.1 he
        exact .deposit a b n S hn hle hg
      · cases he
    · cases he
  | transfer a b =>
    simp only [exec] at he
    split at he
    · rename_i l n ho hn
      split at he
      · cases he
      · rename_i S1 ht
        obtain ⟨S, hg, rfl⟩ := Option.map_eq_some_iff.1 he
        exact .transfer a b l n S1 S ho hn ht hg
    · cases he
  | buyExecution fee author =>
    simp only [exec] at he
    split at he
    · rename_i hle
      split at he
      · injection he with he; subst he; exact .dropped fee hle
      · split at he
        · cases he
        · injection he with he; subst he; exact .paid fee _ hle
    · cases he
  | sendAway a =>
    simp only [exec] at he
    split at he
    · rename_i n hn
      split at he
      · rename_i hle
        injection he with he; subst he; exact .sendAway a n hn hle
      · cases he
    · cases he
  | transact k st =>
    simp only [exec] at he
    split at he
    · rename_i l ho
      split at he
      · rename_i o hc
        split at he
        · rename_i hm
          injection he with he; subst he; exact .transact k st l o ho hc hm
        · cases he
      · cases he
    · cases he

theorem OriginOk.step {C : Cfg} {s : Sender} {e e' : Exec} {i : Instr} (h : OriginOk s e.origin) (he : Did C e i e') :
    OriginOk s e'.origin := by
  cases he with
  | clear => intro l hl; cases hl
  | descend js l ho =>
    intro l' hl'
    injection hl' with hl'
    obtain ⟨js', e1⟩ := h l ho
    exact ⟨js' ++ js, by rw [← hl', e1]; simp⟩
  | _ => exact h

theorem execAll_snoc (C : Cfg) (e : Exec) (prog : List Instr) (i : Instr) :
    execAll C e (prog ++ [i]) = (exec C (execAll C e prog) i).getD (execAll C e prog) := by
  unfold execAll
  rw [List.foldl_append]
  rfl

theorem before_origin (C : Cfg) (X : XSys) (s : Sender) (prog : List Instr) : OriginOk s (before C X s prog).origin := by
  induction prog using List.reverseRecOn with
  | nil =>
    intro l hl
    injection hl with hl
    exact ⟨[], by rw [← hl]; cases s <;> rfl⟩
  | append_singleton prog i ih =>
    unfold before at *
    rw [execAll_snoc]
    cases he : exec C (execAll C ⟨X, some s.loc, 0⟩ prog) i with
    | none => exact ih
    | some e' => exact ih.step (exec_did he)

/-! ### C122: origins -/

theorem toOrigin_ok {s : Sender} {l : Location} {k : OriginKind} {o : Origin} (hok : ∃ js, l = ⟨1, s.loc.interior ++ js⟩)
    (ho : toOrigin l k = some o) : o ≠ .root ∧ ∀ a, o = .signed a → Owns s a := by
  cases k with
  | sovereignAccount =>
    obtain ⟨a, ha, rfl⟩ := Option.map_eq_some_iff.1 ho
    refine ⟨by simp, fun b hb => ?_⟩
    injection hb with hb
    subst hb
    exact owner hok ha
  | native =>
    unfold toOrigin at ho
    dsimp only at ho
    by_cases e : l = relayLocation
    · rw [if_pos e] at ho
      injection ho with ho
      subst ho
      exact ⟨by simp, by simp⟩
    · rw [if_neg e] at ho
      obtain ⟨js, rfl⟩ := hok
      dsimp only at ho
      split at ho
      · split at ho
        · injection ho with ho; subst ho; exact ⟨by simp, by simp⟩
        · cases ho
      · rename_i h _; cases h
      · cases ho
  | xcm =>
    injection ho with ho
    subst ho
    exact ⟨by simp, by simp⟩
  | superuser => cases ho

/-- **C122.** Whatever a message from the relay chain or a sibling parachain contains, a call in it is never made by root, and if it is made by an
account, then by one the sender owns, never by a local user, the pot or the treasury. -/
theorem C122_never_root (C : Cfg) (X : XSys) (s : Sender) (prog : List Instr) (k : OriginKind) (l : Location) (o : Origin)
    (hl : (before C X s prog).origin = some l) (ho : toOrigin l k = some o) :
    o ≠ .root ∧ ∀ a, o = .signed a → Owns s a :=
  toOrigin_ok (before_origin C X s prog l hl) ho

/-- **C122** (calls reserved to root): no message gets one executed. -/
theorem C122_root_calls_refused (C : Cfg) (X : XSys) (s : Sender) (prog : List Instr) (k : OriginKind) (st : Ledger.Step)
    (hr : needsRoot st = true) : exec C (before C X s prog) (.transact k st) = none := by
  have hn : ∀ a, signer C.N st ≠ some a := by
    intro a
    cases st with
    | token env st => cases st <;> simp [needsRoot, signer] at hr ⊢
    | _ => simp [needsRoot] at hr
  unfold exec
  dsimp only
  cases hl : (before C X s prog).origin with
  | none => rfl
  | some l =>
    dsimp only
    cases ho : toOrigin l k with
    | none => rfl
    | some o =>
      dsimp only
      rw [if_neg]
      intro hm
      have h1 := (C122_never_root C X s prog k l o hl ho).1
      cases o with
      | root => exact h1 rfl
      | signed a => unfold mayCall at hm; exact hn a (by simpa using hm)
      | relay => cases hm
      | siblingPara id => cases hm
      | xcm l => cases hm

/-! ### Effects -/

theorem takeFrom_eff {C : Cfg} {S S' : Sys} {l : Location} {n : Nat} (h : takeFrom C S l n = some S') :
    ∃ w, toAccount l = some w ∧ Eff S.F S'.F (some (C.N.num w)) 0 n ∧ S'.held = S.held := by
  unfold takeFrom at h
  cases hw : toAccount l with
  | none => rw [hw] at h; cases h
  | some w =>
    rw [hw] at h
    dsimp only at h
    by_cases hf : S.F.led.free (C.N.num w) < n + frozen S.F (C.N.num w)
    · rw [if_pos hf] at h; cases h
    · rw [if_neg hf] at h
      injection h with h
      subst h
      exact ⟨w, rfl, .burn (C.N.num w) n rfl (by omega) (by omega) rfl rfl rfl, rfl⟩

theorem giveTo_eff {C : Cfg} {S S' : Sys} {l : Location} {n : Nat} (h : giveTo C S l n = some S') :
    Eff S.F S'.F none n 0 ∧ S'.held = S.held := by
  unfold giveTo at h
  cases hw : toAccount l with
  | none => rw [hw] at h; cases h
  | some w =>
    rw [hw] at h
    dsimp only at h
    by_cases hf : S.F.led.free (C.N.num w) + n ≥ pow128
    · rw [if_pos hf] at h; cases h
    · rw [if_neg hf] at h
      injection h with h
      subst h
      exact ⟨.credit (C.N.num w) n rfl rfl rfl, rfl⟩

/-- A relayed transfer of this account's tokens. -/
def Relayed (C : Cfg) (st : Ledger.Step) (x : Nat) : Prop :=
  ∃ env r p f d t amount, st = .token env (.proxy r (.transfer p f d t amount)) ∧ x = C.N.num f

theorem call_eff {C : Cfg} {S : Sys} {st : Ledger.Step} {a : Acct} (hs : signer C.N st = some a) :
    ∃ p, Eff S.F (Ledger.step C S st).F p 0 0 ∧ (Ledger.step C S st).held = S.held ∧ (p = none ∨ p = payer C S st) ∧
      ∀ x, p = some x → x = C.N.num a ∨ Relayed C st x := by
  cases st with
  | stake op => cases hs
  | takeFee w f => cases hs
  | settleFee w p r => cases hs
  | transfer f d n =>
    have hf : C.N.num a = f := C.N.right f a hs
    obtain ⟨h1, h2⟩ := transfer_eff S f d n
    exact ⟨some f, h1, h2, .inr rfl, fun x hx => .inl (by injection hx with hx; rw [← hx, hf])⟩
  | token env st =>
    cases st with
    | proxy r c =>
      have h := token_eff C S env (.proxy r c) (by intro _ _ h; cases h)
      refine ⟨_, h.1, h.2, .inr rfl, fun x hx => ?_⟩
      cases c with
      | transfer p f d t n =>
        have hx' : some (C.N.num f) = some x := hx
        injection hx' with hx'
        exact .inr ⟨env, r, p, f, d, t, n, rfl, hx'.symm⟩
      | _ => cases hx
    | signedTransfer o p f d t n =>
      by_cases hof : o = f
      · subst hof
        have h := token_eff C S env (.signedTransfer o p o d t n) (by intro _ _ h; cases h)
        refine ⟨_, h.1, h.2, .inr rfl, fun x hx => ?_⟩
        have hx' : some (C.N.num o) = some x := hx
        injection hx' with hx'
        injection hs with hs
        exact .inl (by rw [← hx', ← hs])
      · refine ⟨none, .same ?_ rfl rfl, rfl, .inl rfl, by intro x hx; cases hx⟩
        show store C.N S.F (TokenManager.step (envOf C S.F env) (load C S) (.signedTransfer o p f d t n)).1.avt = S.F
        have : (TokenManager.step (envOf C S.F env) (load C S) (.signedTransfer o p f d t n)).1 = load C S := by
          unfold TokenManager.step TokenManager.transactional TokenManager.signedTransfer
          dsimp only
          rw [if_pos hof]
        rw [this]
        exact store_self C.N S.F
    | scheduleDirectLower o f t n t1 =>
      have h := token_eff C S env (.scheduleDirectLower o f t n t1) (by intro _ _ h; cases h)
      exact ⟨_, h.1, h.2, .inr rfl, fun x hx => by cases hx⟩
    | scheduleSignedLower o p f t n t1 =>
      have h := token_eff C S env (.scheduleSignedLower o p f t n t1) (by intro _ _ h; cases h)
      exact ⟨_, h.1, h.2, .inr rfl, fun x hx => by cases hx⟩
    | regenerateLowerProof o i =>
      have h := token_eff C S env (.regenerateLowerProof o i) (by intro _ _ h; cases h)
      exact ⟨_, h.1, h.2, .inr rfl, fun x hx => by cases hx⟩
    | _ => cases hs

theorem mayCall_signer {C : Cfg} {s : Sender} {l : Location} {k : OriginKind} {o : Origin} {st : Ledger.Step}
    (hl : ∃ js, l = ⟨1, s.loc.interior ++ js⟩) (hc : toOrigin l k = some o) (hm : mayCall C.N o st = true) :
    ∃ a, Owns s a ∧ signer C.N st = some a := by
  have h := toOrigin_ok hl hc
  cases o with
  | root => exact absurd rfl h.1
  | signed a => exact ⟨a, h.2 a rfl, by unfold mayCall at hm; simpa using hm⟩
  | relay => cases hm
  | siblingPara id => cases hm
  | xcm l => cases hm

/-! ### C121: who pays -/

theorem did_mono {C : Cfg} {s : Sender} {e e' : Exec} {i : Instr} (h : Did C e i e') (ho : OriginOk s e.origin) (x : Nat)
    (hx : ∀ w, Owns s w → x ≠ C.N.num w) (hr : ∀ k st, i = .transact k st → ¬ Relayed C st x) :
    e.X.S.F.led.free x ≤ e'.X.S.F.led.free x := by
  have take : ∀ {S S' : Sys} {l : Location} {n : Nat}, e.origin = some l → takeFrom C S l n = some S' → S.F.led.free x ≤ S'.F.led.free x := by
    intro S S' l n hl ht
    obtain ⟨w, hw, ef, _⟩ := takeFrom_eff ht
    exact ef.mono x (fun q => by injection q with q; exact hx w (owner (ho l hl) hw) q.symm)
  cases h with
  | withdraw a l n S hl hn ht => exact take hl ht
  | reserve a hl => exact Nat.le_refl _
  | claim a l n hl hn hm => exact Nat.le_refl _
  | clear => exact Nat.le_refl _
  | descend js l hl => exact Nat.le_refl _
  | deposit a b n S hn hle hg => exact (giveTo_eff hg).1.mono x (by simp)
  | transfer a b l n S1 S hl hn ht hg => exact Nat.le_trans (take hl ht) ((giveTo_eff hg).1.mono x (by simp))
  | dropped fee hle => exact Nat.le_refl _
  | paid fee w hle => exact (Eff.credit (C.N.num w) fee rfl rfl rfl : Eff e.X.S.F _ none fee 0).mono x (by simp)
  | sendAway a n hn hle => exact Nat.le_refl _
  | transact k st l o hl hc hm =>
    obtain ⟨a, ha, hs⟩ := mayCall_signer (ho l hl) hc hm
    obtain ⟨p, ef, _, _, hp⟩ := call_eff (S := e.X.S) hs
    refine ef.mono x (fun q => ?_)
    rcases hp x q with h | h
    · exact hx a ha h
    · exact hr k st rfl h

theorem settle_S (l : Location) (e : Exec) : (settle l e).S = e.X.S := by
  unfold settle
  split <;> rfl

/-- **C121.** Whatever a message contains, it lowers the native balance of an account only if the sender owns the account, or if the message contains a
relayed transfer of that account's tokens (which needs its signature: `C120_signed_transfer_needs_signature`). -/
theorem C121_only_the_senders_accounts_pay (C : Cfg) (X : XSys) (s : Sender) (prog : List Instr) (x : Nat)
    (h : (message C X s prog).S.F.led.free x < X.S.F.led.free x) :
    (∃ w, Owns s w ∧ x = C.N.num w) ∨
    ∃ k env r p f d t amount, Instr.transact k (.token env (.proxy r (.transfer p f d t amount))) ∈ prog ∧ x = C.N.num f := by
  by_contra hc
  push Not at hc
  obtain ⟨h1, h2⟩ := hc
  have : X.S.F.led.free x ≤ (before C X s prog).X.S.F.led.free x := by
    clear h
    induction prog using List.reverseRecOn with
    | nil => exact Nat.le_refl _
    | append_singleton prog i ih =>
      have hi := ih (fun k env r p f d t amount hm => h2 k env r p f d t amount (List.mem_append_left _ hm))
      have ho := before_origin C X s prog
      unfold before at *
      rw [execAll_snoc]
      cases he : exec C (execAll C ⟨X, some s.loc, 0⟩ prog) i with
      | none => exact hi
      | some e' =>
        refine Nat.le_trans hi (did_mono (exec_did he) ho x h1 ?_)
        rintro k st rfl ⟨env, r, p, f, d, t, amount, rfl, rfl⟩
        exact h2 k env r p f d t amount (by simp) rfl
  unfold message at h
  rw [settle_S] at h
  exact absurd h (Nat.not_lt.2 this)

theorem Eff.linv {C : Cfg} {S S' : Sys} {p : Option Nat} {cr de : Nat} (h : Eff S.F S'.F p cr de) (hp : p ≠ some C.E.pot) (hi : LInv C S) :
    LInv C S' := ⟨h.reach hp hi.reach, fun a ha => h.cov a (hi.cov a ha)⟩

theorem not_pot {C : Cfg} (hR : RuntimeAccounts C) {s : Sender} {w : Acct} (h : Owns s w) : C.N.num w ≠ C.E.pot := by
  rw [hR.1]
  intro e
  have e := num_inj C.N e
  cases s with
  | relay =>
    rcases h with h | ⟨id, hid, h⟩
    · exact ((C122_accounts_distinct 0 0 (by decide) (by decide)).2.2 w (by rw [h]; simp)).1 e
    · exact ((C122_accounts_distinct id id hid hid).2.2 w (by rw [h]; simp)).1 e
  | sibling id hid => 
    have h' : w = siblingAccount id := h
    exact ((C122_accounts_distinct id id hid hid).2.2 w (by rw [h']; simp)).1 e

theorem did_linv {C : Cfg} (hR : RuntimeAccounts C) {s : Sender} {e e' : Exec} {i : Instr} (h : Did C e i e') (ho : OriginOk s e.origin)
    (hk : ∀ k st S, i = .transact k st → payer C S st ≠ some C.E.pot) (hi : LInv C e.X.S) : LInv C e'.X.S := by
  have take : ∀ {S S' : Sys} {l : Location} {n : Nat}, e.origin = some l → takeFrom C S l n = some S' → LInv C S → LInv C S' := by
    intro S S' l n hl ht hS
    obtain ⟨w, hw, ef, _⟩ := takeFrom_eff ht
    exact Eff.linv ef (fun q => by injection q with q; exact not_pot hR (owner (ho l hl) hw) q) hS
  cases h with
  | withdraw a l n S hl hn ht => exact take hl ht hi
  | reserve a hl => exact hi
  | claim a l n hl hn hm => exact hi
  | clear => exact hi
  | descend js l hl => exact hi
  | deposit a b n S hn hle hg => exact Eff.linv (giveTo_eff hg).1 (by simp) hi
  | transfer a b l n S1 S hl hn ht hg => exact Eff.linv (giveTo_eff hg).1 (by simp) (take hl ht hi)
  | dropped fee hle => exact hi
  | paid fee w hle =>
    exact Eff.linv (S := e.X.S) (Eff.credit (C.N.num w) fee rfl rfl rfl : Eff e.X.S.F _ none fee 0) (by simp) hi
  | sendAway a n hn hle => exact hi
  | transact k st l o hl hc hm =>
    obtain ⟨a, ha, hs⟩ := mayCall_signer (ho l hl) hc hm
    obtain ⟨p, ef, _, hp, _⟩ := call_eff (S := e.X.S) hs
    refine Eff.linv ef ?_ hi
    rcases hp with rfl | rfl
    · simp
    · exact hk k st _ rfl

theorem message_linv {C : Cfg} (hR : RuntimeAccounts C) {X : XSys} (s : Sender) (prog : List Instr) (hk : KeylessProg C prog)
    (hi : LInv C X.S) : LInv C (before C X s prog).X.S := by
  induction prog using List.reverseRecOn with
  | nil => exact hi
  | append_singleton prog i ih =>
    have h := ih (fun k st S hm => hk k st S (List.mem_append_left _ hm))
    have ho := before_origin C X s prog
    unfold before at *
    rw [execAll_snoc]
    cases he : exec C (execAll C ⟨X, some s.loc, 0⟩ prog) i with
    | none => exact h
    | some e' => exact did_linv hR (exec_did he) ho (fun k st S hi => hk k st S (by rw [hi]; simp)) h

theorem XReach.inv {C : Cfg} (hE : C.E.Sane) (hR : RuntimeAccounts C) {X : XSys} (h : XReach C X) : LInv C X.S := by
  induction h with
  | start S hS => exact hS.inv hE
  | ledger X st _ hk ih => exact ih.step hE st hk
  | message X s prog _ hk ih =>
    show LInv C (Xcm.message C X s prog).S
    unfold Xcm.message
    rw [settle_S]
    exact message_linv hR s prog hk ih

/-- **C121** (stakes): with messages as well, everything an account has staked stays covered by its own balance. -/
theorem C121_stake_is_covered (C : Cfg) (hE : C.E.Sane) (hR : RuntimeAccounts C) (X : XSys) (hX : XReach C X) (a : Nat) (ha : a ≠ C.E.pot) :
    Staking.staked X.S.F.led a ≤ X.S.F.led.free a := covered_of_inv C hE X.S (hX.inv hE hR) a ha

/-! ### C123: supply -/

/-- Native tokens an instruction takes out of the chain. -/
def gone : Instr → Nat
  | .buyExecution fee none => fee
  | .sendAway a => (nativeAmount a).getD 0
  | _ => 0

/-- What a list of instructions declares, counting those that succeed. -/
def cameIn (C : Cfg) : Exec → List Instr → Nat
  | _, [] => 0
  | e, i :: p => (if (exec C e i).isSome then declared i else 0) + cameIn C ((exec C e i).getD e) p

/-- What a list of instructions takes out, counting those that succeed. -/
def goneIn (C : Cfg) : Exec → List Instr → Nat
  | _, [] => 0
  | e, i :: p => (if (exec C e i).isSome then gone i else 0) + goneIn C ((exec C e i).getD e) p

/-- Everything while a message is executed. -/
def Val (e : Exec) (n : Nat) : Prop := ∃ m, XSupply e.X m ∧ n = m + e.holding

theorem val_eff {S S' : Sys} {t : List (Location × Nat)} {p : Option Nat} {cr de m : Nat} (h : Eff S.F S'.F p cr de) (hh : S'.held = S.held)
    (hm : XSupply ⟨S, t⟩ m) : ∃ m', XSupply ⟨S', t⟩ m' ∧ m' + de = m + cr := by
  obtain ⟨k, ⟨q, hq, rfl⟩, rfl⟩ := hm
  obtain ⟨q', h1, h2⟩ := h.total hq
  exact ⟨_, ⟨_, ⟨q', h1, rfl⟩, rfl⟩, by dsimp only at *; omega⟩

theorem nativeAmount_id {a : Asset} {n : Nat} (h : nativeAmount a = some n) : a = ⟨⟨1, []⟩, .fungible n⟩ := by
  obtain ⟨id, f⟩ := a
  cases f with
  | fungible m =>
    unfold nativeAmount at h
    dsimp only at h
    by_cases e : id = relayLocation
    · rw [if_pos e] at h; injection h with h; rw [h, e]; rfl
    · rw [if_neg e] at h; cases h
  | nonFungible k => cases h

theorem declared_reserve (a : Asset) : declared (.reserveDeposited a) = (nativeAmount a).getD 0 := by
  obtain ⟨id, f⟩ := a
  cases f with
  | fungible m =>
    show (if id = relayLocation then m else 0) = (if id = relayLocation then some m else none).getD 0
    by_cases e : id = relayLocation
    · rw [if_pos e, if_pos e]; rfl
    · rw [if_neg e, if_neg e]; rfl
  | nonFungible k => rfl

theorem sum_erase {l : List (Location × Nat)} {x : Location × Nat} (h : x ∈ l) :
    ((l.erase x).map Prod.snd).sum + x.2 = (l.map Prod.snd).sum := by
  induction l with
  | nil => cases h
  | cons y l ih =>
    by_cases e : y = x
    · subst e; simp; omega
    · rw [List.erase_cons_tail (by simpa using e)]
      have := ih ((List.mem_cons.1 h).resolve_left (Ne.symm e))
      simp only [List.map_cons, List.sum_cons]
      omega

theorem did_val {C : Cfg} {s : Sender} {e e' : Exec} {i : Instr} (h : Did C e i e') (ho : OriginOk s e.origin) {n : Nat} (hv : Val e n) :
    ∃ n', Val e' n' ∧ n' + gone i = n + declared i := by
  obtain ⟨m, hm, rfl⟩ := hv
  cases h with
  | withdraw a l n S hl hn ht =>
    obtain ⟨w, hw, ef, hh⟩ := takeFrom_eff ht
    obtain ⟨m', h1, h2⟩ := val_eff ef hh hm
    exact ⟨_, ⟨m', h1, rfl⟩, by show _ + 0 = _ + 0; dsimp only; omega⟩
  | reserve a hl => exact ⟨_, ⟨m, hm, rfl⟩, by rw [declared_reserve]; show _ + 0 = _; dsimp only; omega⟩
  | claim a l n hl hn hin =>
    obtain ⟨k, hk, rfl⟩ := hm
    have := sum_erase hin
    exact ⟨_, ⟨_, ⟨k, hk, rfl⟩, rfl⟩, by show _ + 0 = _ + 0; dsimp only at *; omega⟩
  | clear => exact ⟨_, ⟨m, hm, rfl⟩, rfl⟩
  | descend js l hl => exact ⟨_, ⟨m, hm, rfl⟩, rfl⟩
  | deposit a b n S hn hle hg =>
    obtain ⟨ef, hh⟩ := giveTo_eff hg
    obtain ⟨m', h1, h2⟩ := val_eff ef hh hm
    exact ⟨_, ⟨m', h1, rfl⟩, by show _ + 0 = _ + 0; dsimp only; omega⟩
  | transfer a b l n S1 S hl hn ht hg =>
    obtain ⟨w, hw, ef, hh⟩ := takeFrom_eff ht
    obtain ⟨m1, h1, h2⟩ := val_eff ef hh hm
    obtain ⟨ef2, hh2⟩ := giveTo_eff hg
    obtain ⟨m2, h3, h4⟩ := val_eff ef2 hh2 h1
    exact ⟨_, ⟨m2, h3, rfl⟩, by show _ + 0 = _ + 0; dsimp only; omega⟩
  | dropped fee hle => exact ⟨_, ⟨m, hm, rfl⟩, by show _ + fee = _ + 0; dsimp only; omega⟩
  | paid fee w hle =>
    obtain ⟨m', h1, h2⟩ := val_eff (S' := setFree e.X.S (C.N.num w) (e.X.S.F.led.free (C.N.num w) + fee))
      (Eff.credit (C.N.num w) fee rfl rfl rfl : Eff e.X.S.F _ none fee 0) rfl hm
    exact ⟨_, ⟨m', h1, rfl⟩, by show _ + 0 = _ + 0; dsimp only; omega⟩
  | sendAway a n hn hle =>
    refine ⟨_, ⟨m, hm, rfl⟩, ?_⟩
    have : gone (.sendAway a) = n := by show (nativeAmount a).getD 0 = n; rw [hn]; rfl
    rw [this]
    show _ + n = _ + 0
    dsimp only
    omega
  | transact k st l o hl hc hmay =>
    obtain ⟨a, ha, hs⟩ := mayCall_signer (ho l hl) hc hmay
    obtain ⟨p, ef, hh, _, _⟩ := call_eff (S := e.X.S) hs
    obtain ⟨m', h1, h2⟩ := val_eff ef hh hm
    exact ⟨_, ⟨m', h1, rfl⟩, by show _ + 0 = _ + 0; dsimp only; omega⟩

theorem execAll_val {C : Cfg} {s : Sender} (prog : List Instr) {e : Exec} (ho : OriginOk s e.origin) {n : Nat} (hv : Val e n) :
    ∃ n', Val (execAll C e prog) n' ∧ n' + goneIn C e prog = n + cameIn C e prog := by
  induction prog generalizing e n with
  | nil => exact ⟨n, hv, rfl⟩
  | cons i prog ih =>
    show ∃ n', Val (execAll C ((exec C e i).getD e) prog) n' ∧ _
    unfold goneIn cameIn
    cases he : exec C e i with
    | none =>
      obtain ⟨n', h1, h2⟩ := ih ho hv
      exact ⟨n', h1, by simpa using h2⟩
    | some e' =>
      obtain ⟨n1, h1, h2⟩ := did_val (exec_did he) ho hv
      obtain ⟨n', h3, h4⟩ := ih (ho.step (exec_did he)) h1
      refine ⟨n', h3, ?_⟩
      simp only [Option.isSome_some, if_true, Option.getD_some]
      omega

theorem settle_supply {l : Location} {e : Exec} {n : Nat} (h : Val e n) : XSupply (settle l e) n := by
  obtain ⟨m, ⟨k, hk, rfl⟩, rfl⟩ := h
  unfold settle
  split
  · rename_i h0; exact ⟨k, hk, by rw [h0]; rfl⟩
  · exact ⟨k, hk, by simp; omega⟩

/-- **C123 (exactly, partial).** A message changes the number of native tokens by exactly what its executed instructions declare as deposited in the reserve,
minus what they send away. Missing: that a message creates nothing (`C123_full_claim_false`). -/
theorem C123_message_partial (C : Cfg) (X : XSys) (s : Sender) (prog : List Instr) (n : Nat) (hn : XSupply X n) :
    ∃ n', XSupply (message C X s prog) n' ∧ n' + goneIn C ⟨X, some s.loc, 0⟩ prog = n + cameIn C ⟨X, some s.loc, 0⟩ prog := by
  have ho : OriginOk s (some s.loc) := before_origin C X s []
  obtain ⟨n', h1, h2⟩ := execAll_val (C := C) prog (e := ⟨X, some s.loc, 0⟩) ho ⟨n, hn, rfl⟩
  exact ⟨n', settle_supply h1, h2⟩

theorem cameIn_le (C : Cfg) (e : Exec) (prog : List Instr) : cameIn C e prog ≤ (prog.map declared).sum := by
  induction prog generalizing e with
  | nil => exact Nat.le_refl _
  | cons i prog ih =>
    unfold cameIn
    have := ih ((exec C e i).getD e)
    simp only [List.map_cons, List.sum_cons]
    by_cases h : (exec C e i).isSome = true
    · rw [if_pos h]; omega
    · rw [if_neg h]; omega

theorem cameIn_sibling (C : Cfg) (id : Nat) (hid : id < 2 ^ 32) (prog : List Instr) (e : Exec) (ho : OriginOk (.sibling id hid) e.origin) :
    cameIn C e prog = 0 := by
  induction prog generalizing e with
  | nil => rfl
  | cons i prog ih =>
    unfold cameIn
    cases he : exec C e i with
    | none => simpa using ih e ho
    | some e' =>
      have hd := exec_did he
      have := ih e' (ho.step hd)
      simp only [Option.isSome_some, if_true, Option.getD_some, this, Nat.add_zero]
      cases hd with
      | reserve a hl =>
        rw [declared_reserve]
        cases hn : nativeAmount a with
        | none => rfl
        | some m =>
          exfalso
          have := nativeAmount_id hn
          obtain ⟨js, e1⟩ := ho _ hl
          rw [this] at e1
          have : ([] : List Junction) = .parachain id :: js := congrArg Location.interior e1
          cases this
      | _ => rfl

/-- **C123** (siblings): no message of a sibling parachain creates native tokens. -/
theorem C123_siblings_create_nothing (C : Cfg) (X : XSys) (id : Nat) (hid : id < 2 ^ 32) (prog : List Instr) (n : Nat) (hn : XSupply X n) :
    ∃ n', XSupply (message C X (.sibling id hid) prog) n' ∧ n' ≤ n := by
  obtain ⟨n', h1, h2⟩ := C123_message_partial C X (.sibling id hid) prog n hn
  rw [cameIn_sibling C id hid prog ⟨X, some (Sender.sibling id hid).loc, 0⟩ (before_origin C X _ [])] at h2
  exact ⟨n', h1, by omega⟩

/-- **C123** (the relay chain): a message of the relay chain creates at most the relay tokens it declares as deposited. -/
theorem C123_relay_creates_deposits (C : Cfg) (X : XSys) (prog : List Instr) (n : Nat) (hn : XSupply X n) :
    ∃ n', XSupply (message C X .relay prog) n' ∧ n' ≤ n + (prog.map declared).sum := by
  obtain ⟨n', h1, h2⟩ := C123_message_partial C X .relay prog n hn
  have := cameIn_le C ⟨X, some Sender.relay.loc, 0⟩ prog
  exact ⟨n', h1, by omega⟩

/-- What a step creates. -/
def xcreated (C : Cfg) (X : XSys) : Step → Nat
  | .ledger st => created C X.S st
  | .message s p => cameIn C ⟨X, some s.loc, 0⟩ p

/-- What a step destroys. -/
def xdestroyed (C : Cfg) (X : XSys) : Step → Nat
  | .ledger st => destroyed C X.S st
  | .message s p => goneIn C ⟨X, some s.loc, 0⟩ p

/-- What a history creates. -/
def xcreatedIn (C : Cfg) : XSys → List Step → Nat
  | _, [] => 0
  | X, st :: h => xcreated C X st + xcreatedIn C (step C X st) h

/-- What a history destroys. -/
def xdestroyedIn (C : Cfg) : XSys → List Step → Nat
  | _, [] => 0
  | X, st :: h => xdestroyed C X st + xdestroyedIn C (step C X st) h

/-- Nothing in the history is done with the pot's key, and no growth is lifted. -/
def PlainRun (C : Cfg) : XSys → List Step → Prop
  | _, [] => True
  | X, .ledger st :: h => Keyless C X.S st ∧ ¬ IsGrowth st ∧ PlainRun C (step C X (.ledger st)) h
  | X, .message s p :: h => KeylessProg C p ∧ PlainRun C (step C X (.message s p)) h

/-- **C123 (histories, partial).** Over any history of everything the chain does and all messages it gets, without growth lifts, the number of native tokens changes
by the amounts lifted, refunded and deposited by the relay chain, minus the amounts lowered and sent away. Missing: that the relay chain's
deposits add nothing. -/
theorem C123_history_partial (C : Cfg) (hE : C.E.Sane) (hR : RuntimeAccounts C) (X : XSys) (hX : XReach C X) (h : List Step) (hp : PlainRun C X h)
    (n : Nat) (hn : XSupply X n) :
    ∃ n', XSupply (h.foldl (step C) X) n' ∧ n' + xdestroyedIn C X h = n + xcreatedIn C X h := by
  induction h generalizing X n with
  | nil => exact ⟨n, hn, rfl⟩
  | cons st h ih =>
    have one : ∃ n1, XSupply (step C X st) n1 ∧ n1 + xdestroyed C X st = n + xcreated C X st := by
      cases st with
      | ledger st =>
        obtain ⟨k, hk, rfl⟩ := hn
        obtain ⟨k', h1, h2⟩ := supply_step_of_inv C hE X.S (hX.inv hE hR) st hp.2.1 k hk
        exact ⟨_, ⟨k', h1, rfl⟩, by show _ + destroyed C X.S st = _ + created C X.S st; dsimp only [step]; omega⟩
      | message s p => exact C123_message_partial C X s p n hn
    obtain ⟨n1, h1, e1⟩ := one
    have next : XReach C (step C X st) ∧ PlainRun C (step C X st) h := by
      cases st with
      | ledger st => exact ⟨.ledger X st hX hp.1, hp.2.2⟩
      | message s p => exact ⟨.message X s p hX hp.1, hp.2⟩
    obtain ⟨n2, h2, e2⟩ := ih (step C X st) next.1 next.2 n1 h1
    refine ⟨n2, h2, ?_⟩
    show n2 + (xdestroyed C X st + xdestroyedIn C _ h) = n + (xcreated C X st + xcreatedIn C _ h)
    omega

/-- Some of the relay chain's token. -/
def relayToken (n : Nat) : Asset := ⟨⟨1, []⟩, .fungible n⟩

/-- A local account. -/
def localAccount (a : Acct) : Location := ⟨0, [.accountId32 none a]⟩

/-- **C123 (counterexample).** The full claim is false for every state: a transfer of `n` units of the relay chain's own token to an account here, which is what
the relay chain's reserve transfer sends, gives that account `n` new native tokens. -/
theorem C123_full_claim_false (C : Cfg) (X : XSys) (alice : Acct) (n m : Nat) (hm : XSupply X m)
    (hov : X.S.F.led.free (C.N.num alice) + n < pow128) :
    let X' := message C X .relay [.reserveDeposited (relayToken n), .clearOrigin, .deposit (relayToken n) (localAccount alice)]
    X'.S.F.led.free (C.N.num alice) = X.S.F.led.free (C.N.num alice) + n ∧ XSupply X' (m + n) := by
  have hg : giveTo C X.S (localAccount alice) n =
      some (setFree X.S (C.N.num alice) (X.S.F.led.free (C.N.num alice) + n)) := by
    have : toAccount (localAccount alice) = some alice := rfl
    unfold giveTo
    rw [this]
    dsimp only
    rw [if_neg (by omega)]
  have hx : message C X .relay [.reserveDeposited (relayToken n), .clearOrigin, .deposit (relayToken n) (localAccount alice)] =
      ⟨setFree X.S (C.N.num alice) (X.S.F.led.free (C.N.num alice) + n), X.trapped⟩ := by
    have hn : nativeAmount (relayToken n) = some n := rfl
    have h1 : exec C ⟨X, some Sender.relay.loc, 0⟩ (.reserveDeposited (relayToken n)) = some ⟨X, some Sender.relay.loc, n⟩ := by
      simp [exec, isReserve, relayToken, Sender.loc, relayLocation]
      rfl
    have h2 : exec C ⟨X, none, n⟩ (.deposit (relayToken n) (localAccount alice)) =
        some ⟨⟨setFree X.S (C.N.num alice) (X.S.F.led.free (C.N.num alice) + n), X.trapped⟩, none, 0⟩ := by
      simp [exec, hn, hg]
    unfold message execAll
    simp only [List.foldl_cons, List.foldl_nil, h1, Option.getD_some]
    have h3 : exec C ⟨X, some Sender.relay.loc, n⟩ .clearOrigin = some ⟨X, none, n⟩ := rfl
    rw [h3, Option.getD_some, h2, Option.getD_some]
    rfl
  intro X'
  have hX' : X' = _ := hx
  rw [hX']
  refine ⟨?_, ?_⟩
  · show upd X.S.F.led.free (C.N.num alice) _ (C.N.num alice) = _
    rw [upd_same]
  · obtain ⟨m', h1, h2⟩ := val_eff (S' := setFree X.S (C.N.num alice) (X.S.F.led.free (C.N.num alice) + n))
      (Eff.credit (C.N.num alice) n rfl rfl rfl : Eff X.S.F _ none n 0) rfl hm
    have : m' = m + n := by omega
    rw [← this]
    exact h1

/-! ### Concrete cases -/

/-- The three collators of `Props/Ledger.lean` with the runtime's pot and treasury. -/
def cfgX : Cfg := ⟨⟨Staking.smallPar, 2, 4, 3, 2, 10, false, 0, leNumbering.num potAccount, leNumbering.num treasuryAccount⟩, leNumbering, treasuryAccount, rfl⟩

/-- The first hundred accounts have 1000 each, parachain 2000 has 500. -/
def freeX (a : Nat) : Nat := if a < 100 then 1000 else if a = leNumbering.num (siblingAccount 2000) then 500 else 0

/-- The staking ledger at genesis. -/
def ledX : Staking.St := Staking.run Staking.smallPar (Staking.St.init 2 1 5 freeX) Staking.threeSetup

/-- The state at genesis. -/
def sysX : XSys := ⟨⟨TokenManager.s0, (Staking.genesis cfgX.E ledX).getD (Staking.blank cfgX.E ledX), 0⟩, []⟩

theorem cfgX_sane : cfgX.E.Sane := ⟨⟨by decide, by decide, by decide, by decide⟩, by decide, by decide⟩

theorem sysX_reach : XReach cfgX sysX := by
  obtain ⟨G, hG⟩ := Option.isSome_iff_exists.1 (Staking.C75_genesis_never_panics cfgX.E cfgX_sane 2 1 5 freeX Staking.threeSetup (by decide)
    (by simp [Staking.threeSetup]))
  refine .start _ ⟨2, 1, 5, freeX, Staking.threeSetup, by decide, by simp [Staking.threeSetup], ?_, ?_⟩
  · intro pre a v post e
    have : Staking.Op.setFree a v ∈ Staking.threeSetup := by rw [e]; simp
    simp [Staking.threeSetup] at this
  · have hG' : Staking.genesis cfgX.E ledX = some G := hG
    show Staking.genesis cfgX.E ledX = some ((Staking.genesis cfgX.E ledX).getD (Staking.blank cfgX.E ledX))
    rw [hG']
    rfl

/-- A message of parachain 2000: it withdraws, buys execution, deposits, and transfers by a call; then it asks for a call as root, claims to be a reserve, and withdraws
more than it has. -/
def progX : List Instr :=
  [.withdraw (relayToken 200), .buyExecution 10 (some (acc 1)), .deposit (relayToken 150) (localAccount (acc 7)),
   .transact .sovereignAccount (.transfer (leNumbering.num (siblingAccount 2000)) 8 100),
   .transact .superuser (.token TokenManager.env0 (.rootTreasury (acc 9) 1)), .reserveDeposited (relayToken 1000), .withdraw (relayToken 1000)]

/-- The first four are executed, the last three refused; the 40 left over are trapped. -/
example : (message cfgX sysX (.sibling 2000 (by decide)) progX).S.F.led.free (leNumbering.num (siblingAccount 2000)) = 200 ∧
    (message cfgX sysX (.sibling 2000 (by decide)) progX).S.F.led.free 1 = 1010 ∧
    (message cfgX sysX (.sibling 2000 (by decide)) progX).S.F.led.free 7 = 1150 ∧
    (message cfgX sysX (.sibling 2000 (by decide)) progX).S.F.led.free 8 = 1100 ∧
    (message cfgX sysX (.sibling 2000 (by decide)) progX).trapped = [(sibling 2000, 40)] := by decide +kernel

/-- And it is a step of the system. -/
example : RuntimeAccounts cfgX ∧ XReach cfgX (step cfgX sysX (.message (.sibling 2000 (by decide)) progX)) := by
  refine ⟨⟨rfl, rfl⟩, .message _ _ _ sysX_reach ?_⟩
  intro k st S h
  simp only [progX, List.mem_cons, List.not_mem_nil, or_false, reduceCtorEq, false_or, Instr.transact.injEq] at h
  rcases h with ⟨rfl, rfl⟩ | ⟨rfl, rfl⟩
  · show some (leNumbering.num (siblingAccount 2000)) ≠ some (leNumbering.num potAccount)
    decide +kernel
  · show some (leNumbering.num treasuryAccount) ≠ some (leNumbering.num potAccount)
    decide +kernel

/-- The origin of a message while it is executed, with the kinds of origin it may ask for. -/
example : (before cfgX sysX (.sibling 2000 (by decide)) (progX.take 3)).origin = some (sibling 2000) ∧
    toOrigin (sibling 2000) .sovereignAccount = some (.signed (siblingAccount 2000)) ∧ toOrigin (sibling 2000) .native = some (.siblingPara 2000) ∧
    toOrigin (sibling 2000) .superuser = none ∧ needsRoot (.token TokenManager.env0 (.rootTreasury (acc 9) 1)) = true := by decide +kernel

end Verif.Xcm
