import Verif.Model.Pool
import Verif.Lemmas.Encoding
import Verif.Props.AuthorPayloads
import Mathlib.Data.List.Induction

/-!
# C115: in the transaction pool, an author's report is only held up by its own
-/

namespace Verif.Pool

open Verif.Payloads

/-! ### Specification -/

/-- The two reports are on the same matter. For a check result, a processing or a challenge of an event, events are told apart by the hash of their
id; `y` may be by someone else than `x` only in the cases of a check result, a processing, a recorded root and an advanced slot. -/
def SameMatter (H : List UInt8 → Hash) (x y : Tx) : Prop :=
  match x.content, y.content with
  | .report (.checkResult r _), .report (.checkResult r' _) => H (r.take 64) = H (r'.take 64)
  | .report (.processEvent s t _), .report (.processEvent s' t' _) => H (s.toList ++ t.toList) = H (s'.toList ++ t'.toList)
  | .report (.challengeEvent s t _ a _), .report (.challengeEvent s' t' _ a' _) =>
    a = a' ∧ H (s.toList ++ t.toList) = H (s'.toList ++ t'.toList)
  | .report (.recordRoot p r i _), .report (.recordRoot p' r' i' _) => p = p' ∧ r = r' ∧ i = i'
  | .report (.advanceSlot p n), .report (.advanceSlot p' n') => p = p' ∧ n = n'
  | .report (.rootVote _ f t i v), .report (.rootVote _ f' t' i' v') => f = f' ∧ t = t' ∧ i = i' ∧ v = v' ∧ x.author = y.author
  | .report (.endVote _ f t i), .report (.endVote _ f' t' i') => f = f' ∧ t = t' ∧ i = i' ∧ x.author = y.author
  | .report (.challengeRoot _ r a b), .report (.challengeRoot _ r' a' b') => r = r' ∧ a = a' ∧ b = b' ∧ x.author = y.author
  | .bridge b, .bridge b' => b = b' ∧ x.author.key = y.author.key ∧ x.signature = y.signature
  | _, _ => False

/-- Numbers fit their types, an events partition has at least its range and number, and its author's account is the one named. -/
def Tx.InRange (x : Tx) : Prop :=
  match x.content with
  | .report r => r.InRange
  | .bridge b => b.InRange ∧ ∀ a p, b = .events a p → 10 ≤ p.length

/-! ### Lemmas -/

theorem vecTag_split {p q : String} {x y : List UInt8} (hp : (ascii p).length < pow32) (hq : (ascii q).length < pow32)
    (hx : x.length < pow32) (hy : y.length < pow32) (h : vecTag p x = vecTag q y) : ascii p = ascii q ∧ x = y := by
  unfold vecTag at h
  obtain ⟨h1, h⟩ := scaleBytes_split hp hq h
  have h := List.append_cancel_left h
  obtain ⟨h2, _⟩ := scaleBytes_split (b := []) (d := []) hx hy (by simpa using h)
  exact ⟨h1, h2⟩

/-- Inner part of a report's tag. -/
def inner (H : List UInt8 → Hash) (r : Report) (a : Author) : List UInt8 :=
  match r with
  | .checkResult res _ => scaleBytes (ascii "check") ++ (H (res.take 64)).toList
  | .processEvent s t _ => scaleBytes (ascii "process") ++ (H (s.toList ++ t.toList)).toList
  | .challengeEvent s t _ by_ _ => scaleBytes (ascii "challenge") ++ (by_.toList ++ (H (s.toList ++ t.toList)).toList)
  | .recordRoot _ root i _ => scaleBytes r.context ++ (root.toList ++ leBytes 8 i)
  | .advanceSlot _ slot => scaleBytes r.context ++ leBytes 4 slot
  | .rootVote _ f t i aye => scaleBytes r.context ++ (scaleBytes (sessionId f t i) ++ (boolByte aye ++ a.bytes))
  | .endVote _ f t i => scaleBytes r.context ++ (scaleBytes (sessionId f t i) ++ a.bytes)
  | .challengeRoot _ reason x y => scaleBytes r.context ++ (reasonBytes reason ++ (x.toList ++ (y.toList ++ a.bytes)))

def pre : Report → String
  | .checkResult .. | .processEvent .. | .challengeEvent .. => "EthereumEvents"
  | .recordRoot .. | .advanceSlot .. => "Summary"
  | .rootVote .. | .endVote .. => "vote"
  | .challengeRoot .. => "summary_challenge"

theorem take_64 (r : List UInt8) : r.take 32 ++ (r.drop 32).take 32 = r.take 64 := (List.take_add (l := r) (i := 32) (j := 32)).symm

theorem reportTag_eq (H : List UInt8 → Hash) (r : Report) (a : Author) : reportTag H r a = vecTag (pre r) (inner H r a) := by
  cases r <;> simp only [reportTag, pre, inner, eventHash, take_64]

theorem reason_length (r : Option Nat) : (reasonBytes r).length ≤ 5 := by cases r <;> simp [reasonBytes]

theorem small_scale {x : List UInt8} (h : x.length < 64) : (scaleBytes x).length = x.length + 1 := by
  simp [scaleBytes, compact, h]

theorem inner_length (H : List UInt8 → Hash) (r : Report) (a : Author) : (inner H r a).length < pow32 := by
  have hc : (scaleBytes r.context).length ≤ 64 := by
    have : r.context.length < 63 := by cases r <;> simp only [Report.context, List.length_cons] <;> decide
    rw [small_scale (by omega)]; omega
  have hs : ∀ f t i, (scaleBytes (sessionId f t i)).length = 17 := by
    intro f t i; rw [small_scale (by rw [session_length]; decide), session_length]
  have h5 : (scaleBytes (ascii "check")).length ≤ 64 := by decide
  have h6 : (scaleBytes (ascii "process")).length ≤ 64 := by decide
  have h7 : (scaleBytes (ascii "challenge")).length ≤ 64 := by decide
  have ha : a.bytes.length = 64 := by simp [Author.bytes]
  have hb : ∀ b, (boolByte b).length = 1 := by intro b; simp [boolByte]
  have hp : 1000 < pow32 := by decide
  cases r <;> simp only [inner, List.length_append, Vector.length_toList, leBytes_length, hs, ha, hb]
  all_goals first | omega | skip
  have := reason_length ‹Option Nat›
  omega

theorem author_bytes_inj {a b : Author} (h : a.bytes = b.bytes) : a = b := by
  obtain ⟨h1, h2⟩ := vec_split h
  have h2 := vec_inj h2
  cases a; cases b
  simp only at h1 h2
  rw [h1, h2]

theorem pre_length (r : Report) : (ascii (pre r)).length < pow32 := by cases r <;> (simp only [pre]; decide)

theorem context_split {a b : Report} {x y : List UInt8} (h : scaleBytes a.context ++ x = scaleBytes b.context ++ y) :
    a.context = b.context ∧ x = y := scaleBytes_split (context_length a) (context_length b) h

theorem name_split {p q : String} {x y : List UInt8} (hp : (ascii p).length < pow32) (hq : (ascii q).length < pow32)
    (h : scaleBytes (ascii p) ++ x = scaleBytes (ascii q) ++ y) : ascii p = ascii q ∧ x = y := scaleBytes_split hp hq h

set_option maxHeartbeats 2000000 in
theorem inner_inj (H : List UInt8 → Hash) {r r' : Report} {a a' : Author} {g g' : Bytes 64} (hr : r.InRange) (hr' : r'.InRange)
    (hp : ascii (pre r) = ascii (pre r')) (h : inner H r a = inner H r' a') : SameMatter H ⟨.report r, a, g⟩ ⟨.report r', a', g'⟩ := by
  cases r <;> cases r' <;>
    first
    | (exfalso; simp only [pre] at hp; exact absurd hp (by decide))
    | skip
  case checkResult.checkResult =>
    exact vec_inj (name_split (by decide) (by decide) h).2
  case processEvent.processEvent =>
    exact vec_inj (name_split (by decide) (by decide) h).2
  case challengeEvent.challengeEvent =>
    obtain ⟨h1, h2⟩ := vec_split (name_split (by decide) (by decide) h).2
    exact ⟨h1, vec_inj h2⟩
  case recordRoot.recordRoot =>
    obtain ⟨hc, h⟩ := context_split h
    obtain ⟨h1, h2⟩ := vec_split h
    exact ⟨(List.cons.inj hc).1, h1, le8_inj hr.1 hr'.1 h2⟩
  case advanceSlot.advanceSlot =>
    obtain ⟨hc, h⟩ := context_split h
    exact ⟨(List.cons.inj hc).1, le4_inj hr hr' h⟩
  case rootVote.rootVote =>
    obtain ⟨_, h⟩ := context_split h
    obtain ⟨h1, h⟩ := session_split h
    obtain ⟨a1, a2, a3⟩ := session_inj hr.1 hr.2.1 hr.2.2 hr'.1 hr'.2.1 hr'.2.2 h1
    obtain ⟨h2, h⟩ := bool_split h
    exact ⟨a1, a2, a3, h2, author_bytes_inj h⟩
  case endVote.endVote =>
    obtain ⟨_, h⟩ := context_split h
    obtain ⟨h1, h⟩ := session_split h
    obtain ⟨a1, a2, a3⟩ := session_inj hr.1 hr.2.1 hr.2.2 hr'.1 hr'.2.1 hr'.2.2 h1
    exact ⟨a1, a2, a3, author_bytes_inj h⟩
  case challengeRoot.challengeRoot =>
    obtain ⟨_, h⟩ := context_split h
    obtain ⟨h1, h⟩ := reason_split hr hr' h
    obtain ⟨h2, h⟩ := vec_split h
    obtain ⟨h3, h⟩ := vec_split h
    exact ⟨h1, h2, h3, author_bytes_inj h⟩
  all_goals
    exfalso
    first
    | exact absurd (name_split (by decide) (by decide) h).1 (by decide)
    | (have hc := (context_split h).1
       simp only [Report.context] at hc
       first
       | exact absurd hc (by decide)
       | exact absurd hc (cons_ne (by decide))
       | exact absurd hc.symm (cons_ne (by decide))
       | exact absurd (List.cons.inj hc).2 (by decide))

/-- The prefix of a bridge tag. -/
def bpre : Bridge → String
  | .confirmation .. => "EthBridgeAddConfirmation"
  | .ethTxHash .. => "EthBridgeAddReceipt"
  | .corroboration .. => "EthBridgeAddCorroboration"
  | .events .. => "EthBridgeAddEventRange"
  | .latestBlock .. => "EthBridgeAddLatestEthBlock"

def brest (b : Bridge) (key : Hash) (sig : Bytes 64) : List UInt8 :=
  match b with
  | .confirmation i .. => callBytes b key sig ++ leBytes 4 i
  | .ethTxHash i .. => callBytes b key sig ++ leBytes 4 i
  | .corroboration i .. => callBytes b key sig ++ leBytes 4 i
  | .events _ p => callBytes b key sig ++ p.take 10
  | .latestBlock _ n => callBytes b key sig ++ leBytes 4 n

theorem bridgeTag_eq (b : Bridge) (key : Hash) (sig : Bytes 64) : bridgeTag b key sig = scaleBytes (ascii (bpre b)) ++ brest b key sig := by
  cases b <;> rfl

theorem bpre_length (b : Bridge) : (ascii (bpre b)).length < pow32 := by cases b <;> (simp only [bpre]; decide)

theorem brest_inj {b b' : Bridge} {k k' : Hash} {g g' : Bytes 64} (hb : b.InRange ∧ ∀ a p, b = .events a p → 10 ≤ p.length)
    (hb' : b'.InRange ∧ ∀ a p, b' = .events a p → 10 ≤ p.length) (hp : ascii (bpre b) = ascii (bpre b')) (h : brest b k g = brest b' k' g') :
    b = b' ∧ k = k' ∧ g = g' := by
  cases b <;> cases b' <;>
    first
    | (exfalso; simp only [bpre] at hp; exact absurd hp (by decide))
    | skip
  case confirmation.confirmation =>
    simp only [brest, callBytes, List.cons_append, List.append_assoc] at h
    obtain ⟨h1, h⟩ := le4_split hb.1 hb'.1 (List.cons.inj h).2
    obtain ⟨h2, h⟩ := vec_split h
    obtain ⟨h3, h⟩ := vec_split h
    obtain ⟨h4, h⟩ := vec_split h
    obtain ⟨h5, h⟩ := vec_split h
    exact ⟨by rw [h1, h2, h3], h4, h5⟩
  case ethTxHash.ethTxHash =>
    simp only [brest, callBytes, List.cons_append, List.append_assoc] at h
    obtain ⟨h1, h⟩ := le4_split hb.1 hb'.1 (List.cons.inj h).2
    obtain ⟨h2, h⟩ := vec_split h
    obtain ⟨h3, h⟩ := vec_split h
    obtain ⟨h4, h⟩ := vec_split h
    obtain ⟨h5, h⟩ := vec_split h
    exact ⟨by rw [h1, h2, h3], h4, h5⟩
  case corroboration.corroboration =>
    simp only [brest, callBytes, List.cons_append, List.append_assoc] at h
    obtain ⟨h1, h⟩ := le4_split hb.1.1 hb'.1.1 (List.cons.inj h).2
    obtain ⟨h2, h⟩ := bool_split h
    obtain ⟨h3, h⟩ := bool_split h
    obtain ⟨h4, h⟩ := vec_split h
    obtain ⟨h5, h⟩ := vec_split h
    obtain ⟨h6, h⟩ := le_split (k := 2) hb.1.2 hb'.1.2 h
    obtain ⟨h7, h⟩ := vec_split h
    exact ⟨by rw [h1, h2, h3, h4, h6], h5, h7⟩
  case events.events a p a' p' =>
    simp only [brest, callBytes, List.cons_append, List.append_assoc] at h
    obtain ⟨h1, h⟩ := vec_split (List.cons.inj h).2
    obtain ⟨h2, h⟩ := vec_split h
    have hl := hb.2 a p rfl
    have hl' := hb'.2 a' p' rfl
    obtain ⟨h3, h⟩ := back_split (k := 74) (by simp; omega) (by simp; omega) h
    obtain ⟨h4, h⟩ := vec_split h
    exact ⟨by rw [h1, h3], h2, h4⟩
  case latestBlock.latestBlock =>
    simp only [brest, callBytes, List.cons_append, List.append_assoc] at h
    obtain ⟨h1, h⟩ := vec_split (List.cons.inj h).2
    obtain ⟨h2, h⟩ := vec_split h
    obtain ⟨h3, h⟩ := le4_split hb.1 hb'.1 h
    obtain ⟨h4, h⟩ := vec_split h
    exact ⟨by rw [h1, h3], h2, h4⟩

theorem pre_ne (r : Report) (b : Bridge) : ascii (pre r) ≠ ascii (bpre b) := by
  cases r <;> cases b <;> (simp only [pre, bpre]; decide)

theorem same_tag (H : List UInt8 → Hash) (x y : Tx) (hx : x.InRange) (hy : y.InRange) (h : tag H x = tag H y) : SameMatter H x y := by
  obtain ⟨c, a, g⟩ := x
  obtain ⟨c', a', g'⟩ := y
  cases c with
  | report r =>
    cases c' with
    | report r' =>
      simp only [tag, reportTag_eq] at h
      obtain ⟨h1, h2⟩ := vecTag_split (pre_length r) (pre_length r') (inner_length H r a) (inner_length H r' a') h
      exact inner_inj H hx hy h1 h2
    | bridge b =>
      simp only [tag, reportTag_eq, bridgeTag_eq, vecTag] at h
      exact absurd (scaleBytes_split (pre_length r) (bpre_length b) h).1 (pre_ne r b)
  | bridge b =>
    cases c' with
    | report r =>
      simp only [tag, reportTag_eq, bridgeTag_eq, vecTag] at h
      exact absurd (scaleBytes_split (pre_length r) (bpre_length b) h.symm).1 (pre_ne r b)
    | bridge b' =>
      simp only [tag, bridgeTag_eq] at h
      obtain ⟨h1, h2⟩ := scaleBytes_split (bpre_length b) (bpre_length b') h
      exact brest_inj hx hy h1 h2

theorem tag_of_same (H : List UInt8 → Hash) (x y : Tx) (h : SameMatter H x y) : tag H x = tag H y := by
  obtain ⟨c, a, g⟩ := x
  obtain ⟨c', a', g'⟩ := y
  cases c with
  | report r =>
    cases c' with
    | report r' =>
      simp only [tag, reportTag_eq]
      cases r <;> cases r' <;> simp only [SameMatter] at h
      case checkResult.checkResult => simp only [pre, inner, h]
      case processEvent.processEvent => simp only [pre, inner, h]
      case challengeEvent.challengeEvent => simp only [pre, inner, h]
      case recordRoot.recordRoot => simp only [pre, inner, Report.context, h]
      case advanceSlot.advanceSlot => simp only [pre, inner, Report.context, h]
      case rootVote.rootVote => simp only [pre, inner, Report.context, h]
      case endVote.endVote => simp only [pre, inner, Report.context, h]
      case challengeRoot.challengeRoot => simp only [pre, inner, Report.context, h]
    | bridge b => cases r <;> exact absurd h id
  | bridge b =>
    cases c' with
    | report r => exact absurd h id
    | bridge b' =>
      obtain ⟨h1, h2, h3⟩ := h
      simp only at h1 h2 h3
      simp only [tag, h1, h2, h3]

theorem same_priority (H : List UInt8 → Hash) (x y : Tx) (hx : x.InRange) (hy : y.InRange) (h : tag H x = tag H y) :
    priority x = priority y := by
  have := same_tag H x y hx hy h
  obtain ⟨c, a, g⟩ := x
  obtain ⟨c', a', g'⟩ := y
  cases c with
  | report r =>
    cases c' with
    | report r' => rfl
    | bridge b => cases r <;> exact absurd this id
  | bridge b =>
    cases c' with
    | report r => exact absurd this id
    | bridge b' => rfl

/-- **C115** (order): a block author takes roots, votes, ends of votes, check results and challenges before any of the bridge's reports, and reports of one kind all
count the same. -/
theorem C115_votes_come_first (r r' : Report) (b b' : Bridge) (a a' c c' : Author) (g g' h h' : Bytes 64) :
    priority ⟨.bridge b, a, g⟩ < priority ⟨.report r, c, h⟩ ∧ priority ⟨.bridge b, a, g⟩ = priority ⟨.bridge b', a', g'⟩ ∧
    priority ⟨.report r, c, h⟩ = priority ⟨.report r', c', h'⟩ := ⟨by simp [priority], rfl, rfl⟩

/-- Every transaction that arrives is in range (they are decoded from bytes). -/
def Op.InRange : Op → Prop
  | .arrive x _ => x.InRange
  | .leave _ => True

theorem submit_sub (H : List UInt8 → Hash) (pool : List Tx) (x : Tx) (ok : Bool) :
    ∀ y ∈ submit H pool x ok, y ∈ pool ∨ (y = x ∧ ok = true ∧ authorMatches x = true) := by
  intro y hy
  unfold submit at hy
  by_cases h1 : (ok && authorMatches x) = false
  · rw [if_pos h1] at hy; exact .inl hy
  rw [if_neg h1] at hy
  by_cases h2 : pool.any (fun y => tag H y == tag H x && decide (priority x ≤ priority y)) = true
  · rw [if_pos h2] at hy; exact .inl hy
  rw [if_neg h2] at hy
  rcases List.mem_append.mp hy with hy | hy
  · exact .inl (List.mem_filter.mp hy).1
  · have := Bool.not_eq_false _ ▸ h1
    rw [Bool.and_eq_true] at this
    exact .inr ⟨List.mem_singleton.mp hy, this⟩

theorem submit_cases (H : List UInt8 → Hash) (pool : List Tx) (x : Tx) (ok : Bool) (hp : ∀ y ∈ pool, y.InRange) (hx : x.InRange) :
    (submit H pool x ok = pool ∧ ((ok && authorMatches x) = false ∨ ∃ y ∈ pool, tag H y = tag H x)) ∨
      (submit H pool x ok = pool ++ [x] ∧ ok = true ∧ authorMatches x = true ∧ ∀ y ∈ pool, tag H y ≠ tag H x) := by
  unfold submit
  by_cases h1 : (ok && authorMatches x) = false
  · rw [if_pos h1]; exact .inl ⟨rfl, .inl h1⟩
  rw [if_neg h1]
  by_cases h2 : pool.any (fun y => tag H y == tag H x && decide (priority x ≤ priority y)) = true
  · rw [if_pos h2]
    obtain ⟨y, hy, he⟩ := List.any_eq_true.mp h2
    simp only [Bool.and_eq_true, beq_iff_eq] at he
    exact .inl ⟨rfl, .inr ⟨y, hy, he.1⟩⟩
  rw [if_neg h2]
  have hne : ∀ y ∈ pool, tag H y ≠ tag H x := by
    intro y hy he
    refine h2 (List.any_eq_true.mpr ⟨y, hy, ?_⟩)
    have := same_priority H y x (hp y hy) hx he
    simp [he, this]
  have hf : pool.filter (fun y => tag H y != tag H x) = pool := by
    rw [List.filter_eq_self]
    intro y hy
    simp [hne y hy]
  rw [hf]
  have := Bool.not_eq_false _ ▸ h1
  rw [Bool.and_eq_true] at this
  exact .inr ⟨rfl, this.1, this.2, hne⟩

/-- What holds of every pool: entries fit their types, name their author, and provide different tags. -/
theorem pool_inv (H : List UInt8 → Hash) (ops : List Op) (h : ∀ o ∈ ops, o.InRange) :
    (∀ y ∈ runOps H ops, y.InRange ∧ authorMatches y = true) ∧ (runOps H ops).Pairwise (fun x y => tag H x ≠ tag H y) := by
  induction ops using List.reverseRecOn with
  | nil => exact ⟨by simp [runOps], by simp [runOps]⟩
  | append_singleton ops o ih =>
    obtain ⟨i1, i2⟩ := ih (fun o ho => h o (by simp [ho]))
    have hr : runOps H (ops ++ [o]) = op H (runOps H ops) o := by simp [runOps]
    rw [hr]
    cases o with
    | leave stays => exact ⟨fun y hy => i1 y (List.mem_filter.mp hy).1, i2.filter _⟩
    | arrive x ok =>
      have hx : x.InRange := h (.arrive x ok) (by simp)
      rcases submit_cases H (runOps H ops) x ok (fun y hy => (i1 y hy).1) hx with ⟨e, -⟩ | ⟨e, h1, h2, h3⟩
      · show (∀ y ∈ submit H _ x ok, _) ∧ _
        simp only [op]; rw [e]; exact ⟨i1, i2⟩
      · simp only [op]; rw [e]
        refine ⟨?_, ?_⟩
        · intro y hy
          rcases List.mem_append.mp hy with hy | hy
          · exact i1 y hy
          · rw [List.mem_singleton.mp hy]; exact ⟨hx, h2⟩
        · rw [List.pairwise_append]
          refine ⟨i2, by simp, ?_⟩
          intro a ha b hb
          rw [List.mem_singleton.mp hb]; exact h3 a ha

/-! ### Theorems -/

/-- **C115, what the pool takes for the same.** Two reports provide the same tag exactly if they are on the same matter. -/
theorem C115_same_tag_iff (H : List UInt8 → Hash) (x y : Tx) (hx : x.InRange) (hy : y.InRange) : tag H x = tag H y ↔ SameMatter H x y :=
  ⟨same_tag H x y hx hy, tag_of_same H x y⟩

/-- **C115, a report in the pool is not displaced.** Whatever arrives later, a report stays until it is executed, becomes invalid or expires. -/
theorem C115_never_displaced (H : List UInt8 → Hash) (ops : List Op) (h : ∀ o ∈ ops, o.InRange) (x y : Tx) (hy : y.InRange) (ok : Bool)
    (hx : x ∈ runOps H ops) : x ∈ op H (runOps H ops) (.arrive y ok) := by
  rcases submit_cases H (runOps H ops) y ok (fun z hz => ((pool_inv H ops h).1 z hz).1) hy with ⟨e, -⟩ | ⟨e, -⟩
  · simp only [op]; rw [e]; exact hx
  · simp only [op]; rw [e]; exact List.mem_append_left _ hx

/-- **C115, a report is taken unless one on the same matter is there.** -/
theorem C115_taken_unless_same_matter (H : List UInt8 → Hash) (ops : List Op) (h : ∀ o ∈ ops, o.InRange) (x : Tx) (hx : x.InRange)
    (hm : authorMatches x = true) :
    x ∈ op H (runOps H ops) (.arrive x true) ↔ x ∈ runOps H ops ∨ ¬ ∃ y ∈ runOps H ops, SameMatter H y x := by
  have hp : ∀ z ∈ runOps H ops, z.InRange := fun z hz => ((pool_inv H ops h).1 z hz).1
  rcases submit_cases H (runOps H ops) x true hp hx with ⟨e, hc⟩ | ⟨e, -, -, hne⟩
  · simp only [op]; rw [e]
    refine ⟨.inl, ?_⟩
    rintro (hin | hno)
    · exact hin
    · rcases hc with hc | ⟨y, hy, ht⟩
      · simp [hm] at hc
      · exact absurd ⟨y, hy, same_tag H y x (hp y hy) hx ht⟩ hno
  · simp only [op]; rw [e]
    refine ⟨fun _ => .inr ?_, fun _ => by simp⟩
    rintro ⟨y, hy, hs⟩
    exact hne y hy (tag_of_same H y x hs)

/-- Votes, ends of votes, challenges, and everything reported to the bridge: the reports each author makes for itself. -/
def Tx.personal (x : Tx) : Prop :=
  match x.content with
  | .report (.checkResult ..) | .report (.processEvent ..) | .report (.recordRoot ..) | .report (.advanceSlot ..) => False
  | _ => True

/-- **C115, only an author's own report holds up its report.** Whatever has arrived in the pool and left it, a personal report that the checks of the
runtime accept is taken by the pool, unless a report in the name of the same account, on the same matter, is in it. -/
theorem C115_held_up_only_by_own_partial (H : List UInt8 → Hash) (ops : List Op) (h : ∀ o ∈ ops, o.InRange) (x : Tx) (hx : x.InRange)
    (hm : authorMatches x = true) (hp : x.personal) :
    x ∈ op H (runOps H ops) (.arrive x true) ∨
      ∃ y ∈ runOps H ops, y.author.account = x.author.account ∧ SameMatter H y x := by
  by_cases hno : ∃ y ∈ runOps H ops, SameMatter H y x
  · obtain ⟨y, hy, hs⟩ := hno
    refine .inr ⟨y, hy, ?_, hs⟩
    have hy2 := ((pool_inv H ops h).1 y hy).2
    obtain ⟨c, a, g⟩ := x
    obtain ⟨c', a', g'⟩ := y
    cases c' with
    | report r' =>
      cases c with
      | bridge b => cases r' <;> exact absurd hs id
      | report r =>
        cases r' <;> cases r <;> first | exact absurd hs id | exact absurd hp id | skip
        case challengeEvent.challengeEvent =>
          simp only [authorMatches, beq_iff_eq] at hm hy2
          rw [hm, hy2]; exact hs.1
        case rootVote.rootVote => have := hs.2.2.2.2; simp only at this; rw [this]
        case endVote.endVote => have := hs.2.2.2; simp only at this; rw [this]
        case challengeRoot.challengeRoot => have := hs.2.2.2; simp only at this; rw [this]
    | bridge b' =>
      cases c with
      | report r => exact absurd hs id
      | bridge b =>
        obtain ⟨h1, -, -⟩ := hs
        subst h1
        cases b' <;> (simp only [authorMatches, beq_iff_eq] at hm hy2; rw [hm, hy2])
  · exact .inl ((C115_taken_unless_same_matter H ops h x hx hm).mpr (.inr hno))

/-- **C115, at most one report on a matter.** In every pool, two entries are on different matters: a validator has at most one approval and one
rejection of a root waiting, and at most one challenge of an event. -/
theorem C115_one_report_per_matter (H : List UInt8 → Hash) (ops : List Op) (h : ∀ o ∈ ops, o.InRange) :
    (runOps H ops).Pairwise (fun x y => ¬ SameMatter H x y) := by
  refine (pool_inv H ops h).2.imp ?_
  intro a b hne hs
  exact hne (tag_of_same H a b hs)

/-- **C115, the full claim is false: check results.** For any two validators and any two check results of one event, whoever's arrives first keeps the
other's out, whatever the two results say. -/
theorem C115_full_claim_false (H : List UInt8 → Hash) (event : Bytes 64) (false_ true_ : List UInt8) (i j : Nat) (liar honest : Author)
    (g g' : Bytes 64) (hne : liar.account ≠ honest.account) :
    let x : Tx := ⟨.report (.checkResult (event.toList ++ false_) i), liar, g⟩
    let y : Tx := ⟨.report (.checkResult (event.toList ++ true_) j), honest, g'⟩
    y ∉ runOps H [.arrive x true, .arrive y true] := by
  intro x y
  have hxy : x ≠ y := by
    intro e
    exact hne (congrArg (fun z : Tx => z.author.account) e)
  have ht : tag H x = tag H y := by
    refine tag_of_same H x y ?_
    show H ((event.toList ++ false_).take 64) = H ((event.toList ++ true_).take 64)
    rw [List.take_left' (by simp), List.take_left' (by simp)]
  have h1 : submit H [] x true = [x] := by simp [submit, x, authorMatches]
  have h2 : submit H [x] y true = [x] := by
    unfold submit
    rw [if_neg (by simp [y, authorMatches]), if_pos]
    simp [ht, priority, x, y]
  show y ∉ submit H (submit H [] x true) y true
  rw [h1, h2]
  intro hm
  exact hxy (List.mem_singleton.mp hm).symm

/-- **C115, two `Summary` instances.** A validator's vote on a root of one instance keeps its vote on the root of the other with the same blocks and counter
out of the pool, although these are votes on different roots. -/
theorem C115_votes_of_two_instances_collide (H : List UInt8 → Hash) (p q : UInt8) (f t i : Nat) (aye : Bool) (a : Author) (g g' : Bytes 64)
    (hpq : p ≠ q) :
    let x : Tx := ⟨.report (.rootVote p f t i aye), a, g⟩
    let y : Tx := ⟨.report (.rootVote q f t i aye), a, g'⟩
    y ∉ runOps H [.arrive x true, .arrive y true] := by
  intro x y
  have hxy : x ≠ y := by
    intro e
    have := congrArg Tx.content e
    simp only [x, y, Content.report.injEq, Report.rootVote.injEq] at this
    exact hpq this.1
  have ht : tag H x = tag H y := tag_of_same H x y ⟨rfl, rfl, rfl, rfl, rfl⟩
  have h1 : submit H [] x true = [x] := by simp [submit, x, authorMatches]
  have h2 : submit H [x] y true = [x] := by
    unfold submit
    rw [if_neg (by simp [y, authorMatches]), if_pos]
    simp [ht, priority, x, y]
  show y ∉ submit H (submit H [] x true) y true
  rw [h1, h2]
  intro hm
  exact hxy (List.mem_singleton.mp hm).symm

/-- **C115, the bridge's reports are not limited.** Reports to the bridge that differ in their signature only are all taken: an author can fill the pool with
copies of one report. -/
theorem C115_copies_fill_the_pool (H : List UInt8 → Hash) (b : Bridge) (a : Author) (sigs : List (Bytes 64)) (hb : (⟨.bridge b, a, Vector.replicate 64 0⟩ : Tx).InRange)
    (hm : authorMatches ⟨.bridge b, a, Vector.replicate 64 0⟩ = true) (hn : sigs.Nodup) :
    runOps H (sigs.map fun g => .arrive ⟨.bridge b, a, g⟩ true) = sigs.map fun g => ⟨.bridge b, a, g⟩ := by
  induction sigs using List.reverseRecOn with
  | nil => rfl
  | append_singleton l g ih =>
    rw [List.nodup_append] at hn
    have ih := ih hn.1
    have hr : ∀ g : Bytes 64, (⟨.bridge b, a, g⟩ : Tx).InRange := fun g => hb
    have hm : ∀ g : Bytes 64, authorMatches ⟨.bridge b, a, g⟩ = true := fun g => by cases b <;> exact hm
    rw [List.map_append, List.map_append, List.map_singleton, List.map_singleton]
    have : runOps H (l.map (fun g => Op.arrive ⟨.bridge b, a, g⟩ true) ++ [.arrive ⟨.bridge b, a, g⟩ true]) =
        submit H (runOps H (l.map fun g => Op.arrive ⟨.bridge b, a, g⟩ true)) ⟨.bridge b, a, g⟩ true := by simp [runOps, op]
    rw [this, ih]
    rcases submit_cases H (l.map fun g => (⟨.bridge b, a, g⟩ : Tx)) ⟨.bridge b, a, g⟩ true (by
        intro y hy
        obtain ⟨g', -, rfl⟩ := List.mem_map.mp hy
        exact hr g') (hr g) with ⟨-, hc⟩ | ⟨e, -⟩
    · exfalso
      rcases hc with hc | ⟨y, hy, ht⟩
      · rw [hm g] at hc; simp at hc
      · obtain ⟨g', hg', rfl⟩ := List.mem_map.mp hy
        have := (same_tag H _ _ (hr g') (hr g) ht).2.2
        exact hn.2.2 g' hg' g (by simp) this
    · exact e

/-! ### Examples -/

/-- Two validators vote on a root and one of them twice: two votes are waiting. -/
example : let v (k : UInt8) (g : UInt8) : Tx := ⟨.report (.rootVote 1 10 20 3 true), ⟨Vector.replicate 32 k, Vector.replicate 32 k⟩, Vector.replicate 64 g⟩
    runOps (fun _ => Vector.replicate 32 0) [.arrive (v 1 1) true, .arrive (v 2 1) true, .arrive (v 1 2) true] = [v 1 1, v 2 1] := by
  decide +kernel

example : (⟨.report (.rootVote 1 10 20 3 true), ⟨Vector.replicate 32 1, Vector.replicate 32 1⟩, Vector.replicate 64 1⟩ : Tx).InRange ∧
    (⟨.report (.rootVote 1 10 20 3 true), ⟨Vector.replicate 32 1, Vector.replicate 32 1⟩, Vector.replicate 64 1⟩ : Tx).personal :=
  ⟨⟨by decide, by decide, by decide⟩, trivial⟩

/-- An author's confirmation is in range and names its author. -/
example : (⟨.bridge (.confirmation 7 (Vector.replicate 65 9) (Vector.replicate 32 1)), ⟨Vector.replicate 32 1, Vector.replicate 32 4⟩, Vector.replicate 64 0⟩ : Tx).InRange ∧
    authorMatches ⟨.bridge (.confirmation 7 (Vector.replicate 65 9) (Vector.replicate 32 1)), ⟨Vector.replicate 32 1, Vector.replicate 32 4⟩, Vector.replicate 64 0⟩ = true :=
  ⟨⟨by show 7 < 2 ^ 32; decide, by intro a p h; cases h⟩, by decide +kernel⟩

end Verif.Pool
