import Verif.Props.EventsClient

/-!
# C71, C74: what a reported event says, and where it comes from
-/

namespace Verif.EventsClient

open Verif (Addr Hash)
open Verif.Events (ValidEvent values isPrimary signature tryFrom)
open Verif.Parsing (EventData parse LiftedData)

theorem additional_blocks {chain : List Log} {receipt : Hash → Option Nat} {contracts : List Addr} {wanted : List Hash} {ts : List Hash}
    {fs : List Found} (h : identifyAdditional chain receipt contracts wanted ts = .ok fs) :
    ∀ f ∈ fs, ∃ t ∈ ts, ∃ b gs, receipt t = some b ∧ identifyEvents chain b b contracts wanted = .ok gs ∧ f ∈ gs := by
  induction ts generalizing fs with
  | nil => cases h; simp
  | cons t ts ih =>
    unfold identifyAdditional at h
    split at h
    · intro f hf
      obtain ⟨t', ht', r⟩ := ih h f hf
      exact ⟨t', List.mem_cons_of_mem _ ht', r⟩
    · rename_i b hb
      split at h
      · rename_i f1 f2 h1 h2
        cases h
        intro f hf
        rcases List.mem_append.1 hf with hf | hf
        · exact ⟨t, by simp, b, f1, hb, h1, hf⟩
        · obtain ⟨t', ht', r⟩ := ih h2 f hf
          exact ⟨t', List.mem_cons_of_mem _ ht', r⟩
      · cases h
      · cases h

/-- **C74, where a vote's events come from.** Every event an author votes for was logged by one of the bridge contracts (or is a token
transfer to one of them), in a block of the range voted for or in the block of one of the additional transactions. -/
theorem C74_events_are_of_the_range (code : EventData → Nat) (order : List Found → List Found) (ho : ∀ l, (order l).Perm l)
    (chain : List Log) (receipt : Hash → Option Nat) (contracts : List Addr) (wanted additional : List Hash) (range : EthBridge.Range)
    (hlen : 0 < range.length) (hmax : range.start + range.length < 2 ^ 32) (partition : Nat) (p : EthBridge.Partition)
    (h : partitionToVote code order chain receipt contracts wanted additional range partition = some p) :
    ∀ d ∈ p.events, ∃ f l, d = toDiscovered code f ∧ f.sig ∈ wanted ∧ l ∈ chain ∧ parseLog l = .ok f ∧
      (BridgeLog contracts l ∨ DirectTransferLog contracts l) ∧
      ((range.start ≤ f.block ∧ f.block < range.start + range.length) ∨ ∃ t ∈ additional, receipt t = some f.block) := by
  unfold partitionToVote at h
  split at h
  · rename_i fs gs h1 h2
    have hmem := List.mem_of_find?_eq_some h
    intro d hd
    have hin := (EthBridge.C16_no_event_lost range ((order (fs ++ gs)).map (toDiscovered code)) d).1 ⟨p, hmem, hd⟩
    obtain ⟨f, hf, rfl⟩ := List.mem_map.1 hin
    have conclude : ∀ lo hi gs', identifyEvents chain lo hi contracts wanted = .ok gs' → f ∈ gs' →
        ∃ l, f.sig ∈ wanted ∧ l ∈ chain ∧ parseLog l = .ok f ∧ (BridgeLog contracts l ∨ DirectTransferLog contracts l) ∧
          lo ≤ f.block ∧ f.block ≤ hi := by
      intro lo hi gs' h3 h4
      obtain ⟨h5, l, h6, ⟨⟨b, hb, h8, h9⟩, h10⟩, h7⟩ := (C71_reports_only_real_events chain lo hi contracts wanted gs' h3).1 f h4
      have hbl := (parseLog_ok h7).2.2
      rw [hb] at hbl
      cases hbl
      exact ⟨l, h5, h6, h7, h10.imp id And.right, h8, h9⟩
    rcases List.mem_append.1 ((ho _).mem_iff.1 hf) with hf | hf
    · obtain ⟨t, ht, b, gs', hr, h3, h4⟩ := additional_blocks h1 f hf
      obtain ⟨l, q1, q2, q3, q4, q5, q6⟩ := conclude b b gs' h3 h4
      have : b = f.block := by omega
      exact ⟨f, l, rfl, q1, q2, q3, q4, .inr ⟨t, ht, this ▸ hr⟩⟩
    · obtain ⟨l, q1, q2, q3, q4, q5, q6⟩ := conclude _ _ gs h2 hf
      refine ⟨f, l, rfl, q1, q2, q3, q4, .inl ⟨q5, ?_⟩⟩
      have e : range.endBlock = range.start + range.length - 1 := by
        unfold EthBridge.Range.endBlock EthBridge.maxU32
        rw [Nat.min_eq_left (by omega)]
      rw [e] at q6
      omega
  · cases h

example : (∀ d ∈ (partitionToVote (fun _ => 0) id [exLiftLog exTx2 5, exLiftLog exTx 6] (fun _ => some 100) [exBridge] [sigHash .lifted] [exTx]
    ⟨90, 20⟩ 0).elim [] (·.events), 90 ≤ d.block ∧ d.block < 110) := by decide +kernel

/-- What the log of a token transfer says: the emitting contract is the token, the second topic the sender, the data the amount. -/
structure TransferOf (l : Log) (d : LiftedData) : Prop where
  token : d.tokenContract = l.address
  sender : ∃ t, l.topics[1]? = some t ∧ d.senderAddress.toList = t.toList.drop 12
  receiver : ∃ t, l.topics[2]? = some t ∧ d.receiverAddress.toList = List.replicate 12 0 ++ t.toList.drop 12
  amount : l.data.length = 32 ∧ d.amount.val = beVal l.data

/-- **C71, a reported token transfer is the logged one.** The token is the contract that emitted the log. -/
theorem C71_transfer_reported_as_logged (l : Log) (f : Found) (h : parseLog l = .ok f) (d : LiftedData) (hd : f.data = .erc20Transfer d) :
    TransferOf l d := by
  unfold parseLog at h
  split at h
  · cases h
  rename_i t ts ht
  split at h
  · cases h
  rename_i tx htx
  split at h
  · cases h
  rename_i k hk
  split at h
  · cases h
  · cases h
  rename_i d' hp
  split at h
  · cases h
  rename_i b hb
  cases h
  dsimp only at hd
  split at hd
  · rename_i e
    injection hd with hd
    have hk' : k = .erc20DirectTransfer := by
      have no : ∀ {α : Type} (r : Parsing.Res α) (g : α → EventData), (∀ x, g x ≠ .erc20Transfer e) → r.map g ≠ .ok (.erc20Transfer e) := by
        intro α r g hg hr
        cases r with
        | ok x => simp only [Parsing.Res.map] at hr; injection hr with hr; exact hg x hr
        | err x => cases hr
        | panic => cases hr
      cases k
      all_goals first
        | rfl
        | exact (no _ _ (fun x => by simp) hp).elim
    subst hk'
    have he : Parsing.parseErc20 (if l.data = [] then none else some l.data) (l.topics.map Vector.toList) = .ok e := by
      simp only [parse] at hp
      revert hp
      cases Parsing.parseErc20 (if l.data = [] then none else some l.data) (l.topics.map Vector.toList) with
      | ok x => intro hp; simp only [Parsing.Res.map] at hp; injection hp with hp; injection hp with hp; rw [hp]
      | err x => intro hp; cases hp
      | panic => intro hp; cases hp
    unfold Parsing.parseErc20 at he
    split at he
    · cases he
    rename_i data hdata
    split at he
    · cases he
    rename_i c1
    split at he
    · cases he
    rename_i c2
    split at he
    · cases he
    rename_i c3
    split at he
    · cases he
    rename_i c4
    injection he with he
    subst he
    rw [if_pos rfl] at hd
    subst hd
    have hdat : l.data = data := by
      split at hdata
      · cases hdata
      · exact Option.some.inj hdata
    have hlen : l.topics.length = 3 := by simpa using c2
    obtain ⟨t0, t1, t2, h3⟩ : ∃ t0 t1 t2, l.topics = [t0, t1, t2] := by
      match l.topics, hlen with
      | [a, b, c], _ => exact ⟨a, b, c, rfl⟩
    have hd32 : data.length = 32 := by simpa using c1
    have hsl : ∀ t : Hash, Parsing.slice t.toList 12 32 = t.toList.drop 12 := by
      intro t
      unfold Parsing.slice
      exact List.take_of_length_le (by simp)
    refine ⟨rfl, ⟨t1, by rw [h3]; rfl, ?_⟩, ⟨t2, by rw [h3]; rfl, ?_⟩, ?_⟩
    · rw [h3]
      show (Parsing.fromSlice 20 (Parsing.slice t1.toList 12 32)).toList = _
      rw [hsl, Parsing.toList_fromSlice (by simp)]
    · rw [h3]
      show (Parsing.fromSlice 32 (List.replicate 12 0 ++ Parsing.slice t2.toList 12 32)).toList = _
      rw [hsl, Parsing.toList_fromSlice (by simp)]
    · rw [hdat]
      refine ⟨hd32, ?_⟩
      have hz : beVal (data.take 16) = 0 := by
        by_contra hc
        exact c4 ((Parsing.anyNonZero_iff _).mpr hc)
      have hs2 : Parsing.slice data 16 32 = data.drop 16 := by
        unfold Parsing.slice
        exact List.take_of_length_le (by simp [hd32])
      have hv : beVal data = beVal (data.drop 16) := by
        conv_lhs => rw [← List.take_append_drop 16 data, Parsing.beVal_append, hz]
        simp
      rw [hs2, hv]
      refine Parsing.beNat_val ?_
      have := Parsing.beVal_lt (data.drop 16)
      simp only [List.length_drop, hd32] at this
      norm_num at this ⊢
      exact this
  · rename_i hne
    exact absurd hd (hne d)

/-- A transfer of 300 units of token 7 from address 3 to the bridge. -/
def exTransferLog : Log :=
  { address := Vector.replicate 20 7
    topics := [sigHash .erc20DirectTransfer, Vector.replicate 32 3, Vector.ofFn fun i => if i.val < 12 then 0 else 9]
    data := List.replicate 30 0 ++ [1, 44], txHash := some exTx, block := some 100 }

example : ∃ f d, parseLog exTransferLog = .ok f ∧ f.data = .erc20Transfer d ∧ d.tokenContract = Vector.replicate 20 7 ∧ d.amount = 300 := by
  refine ⟨{ sig := sigHash .erc20DirectTransfer, tx := exTx, block := 100, data := .erc20Transfer ⟨Vector.replicate 20 7,
    Vector.replicate 20 3, Vector.ofFn fun i => if i.val < 12 then 0 else 9, 300, 0⟩ }, _, by decide +kernel, rfl, rfl, rfl⟩

end Verif.EventsClient
