import Verif.Proofs.Certs
import Verif.Proofs.Early

/-! C77 in any company: other inputs, and the node's own votes. -/

set_option linter.unusedSimpArgs false
set_option linter.unusedSectionVars false

namespace Overlord.Certs
open Spec M Rep

variable {T : Type} [ContentCodec T] [DecidableEq T]
variable {l : List Node} {h r : Nat} {ty : VoteType}

/-- What one input does to the count. `news` are the votes taken up. -/
structure StepOk (l : List Node) (h r : Nat) (ty : VoteType) (s s' : State T) (f : List (Effect T)) (news kept kept' : List VoteOp)
    (agg : Prop) : Prop where
  led : Led l h r ty s' kept'
  grows : kept' = kept ∨ kept' = kept ++ news
  sound : ∀ x ∈ certified f h r ty, Quorum l (votedFor kept' h r ty x)
  all : noCert h r ty s → ∀ n ∈ l, firstVote kept' h r ty n.address = firstVote (kept ++ news) h r ty n.address
  quiet : noCert h r ty s → (∀ x, ¬ Quorum l (votedFor kept h r ty x)) → (∀ x, ¬ Quorum l (votedFor kept' h r ty x)) → noCert h r ty s'
  makes : agg → (∀ x, ¬ Quorum l (votedFor kept h r ty x)) → ∀ x, Quorum l (votedFor kept' h r ty x) → x ∈ certified f h r ty

/-- The count so far: nobody has two thirds and all votes are kept, or somebody has. -/
def Count (l : List Node) (h r : Nat) (ty : VoteType) (s : State T) (kept ops : List VoteOp) : Prop :=
  Led l h r ty s kept ∧
    ((noCert h r ty s ∧ (∀ n ∈ l, firstVote kept h r ty n.address = firstVote ops h r ty n.address) ∧
        ∀ x, ¬ Quorum l (votedFor kept h r ty x)) ∨
      ∃ x, Quorum l (votedFor kept h r ty x) ∧ Quorum l (votedFor ops h r ty x))

theorem quorum_append {ops : List VoteOp} (ops' : List VoteOp) {x : Hash} (hq : Quorum l (votedFor ops h r ty x)) :
    Quorum l (votedFor (ops ++ ops') h r ty x) :=
  quorum_sub (fun _ _ _ hf => sub_append _ _ _ _ hf) hq

theorem count_step {s s' : State T} {f : List (Effect T)} {news kept kept' ops : List VoteOp} {agg : Prop}
    (hc : Count l h r ty s kept ops) (hs : StepOk l h r ty s s' f news kept kept' agg) :
    Count l h r ty s' kept' (ops ++ news) ∧ (∀ x ∈ certified f h r ty, Quorum l (votedFor (ops ++ news) h r ty x)) ∧
      (agg → ∀ x, noCert h r ty s → (∀ y, ¬ Quorum l (votedFor kept h r ty y)) → Quorum l (votedFor kept' h r ty x) →
        x ∈ certified f h r ty) := by
  obtain ⟨hL, hc⟩ := hc
  refine ⟨⟨hs.led, ?_⟩, ?_, fun ha x _ hn hq => hs.makes ha hn x hq⟩
  · rcases hc with ⟨hn, he, hq⟩ | ⟨x, hx, hy⟩
    · have heq : ∀ n ∈ l, firstVote kept' h r ty n.address = firstVote (ops ++ news) h r ty n.address := by
        intro n hl
        rw [hs.all hn n hl, firstVote_append, firstVote_append, he n hl]
      by_cases hex : ∃ x, Quorum l (votedFor kept' h r ty x)
      · obtain ⟨x, hx⟩ := hex
        refine .inr ⟨x, hx, (quorum_congr fun n hl => ?_).1 hx⟩
        unfold votedFor
        rw [heq n hl]
      · have hno : ∀ x, ¬ Quorum l (votedFor kept' h r ty x) := fun x hx => hex ⟨x, hx⟩
        exact .inl ⟨hs.quiet hn hq hno, heq, hno⟩
    · refine .inr ⟨x, ?_, quorum_append _ hy⟩
      rcases hs.grows with hk | hk
      · rw [hk]; exact hx
      · rw [hk]; exact quorum_append _ hx
  · intro x hx
    have hq := hs.sound x hx
    rcases hc with ⟨hn, he, _⟩ | ⟨y, hy, hyo⟩
    · refine (quorum_congr fun n hl => ?_).1 hq
      unfold votedFor
      rw [hs.all hn n hl, firstVote_append, firstVote_append, he n hl]
    · have hy' : Quorum l (votedFor kept' h r ty y) := by
        rcases hs.grows with hk | hk
        · rw [hk]; exact hy
        · rw [hk]; exact quorum_append _ hy
      obtain rfl := C12_at_most_one_elected _ l h r ty x y hq hy'
      exact quorum_append _ hyo

/-! ## Other inputs -/

theorem ownVotes_append (f g : List (Effect T)) : ownVotes (f ++ g) = ownVotes f ++ ownVotes g := by
  simp [ownVotes, List.filterMap_append]

theorem adopt_none (w : WalInfo T) (ms : List (OverlordMsg T)) (au : Authority) (t : SMRTrigger) :
    certified (.saveWal w true :: (ms.map fun m => Effect.spawnVerify m au) ++ [.trigger t]) h r ty = [] := by
  unfold certified
  rw [List.filterMap_eq_nil_iff]
  intro y hy
  simp only [List.cons_append, List.mem_cons, List.mem_append, List.mem_map, List.not_mem_nil, or_false] at hy
  rcases hy with rfl | ⟨m, _, rfl⟩ | rfl <;> rfl

theorem adopt_own (w : WalInfo T) (ms : List (OverlordMsg T)) (au : Authority) (t : SMRTrigger) :
    ownVotes (.saveWal w true :: (ms.map fun m => Effect.spawnVerify m au) ++ [.trigger t]) = [] := by
  unfold ownVotes
  rw [List.filterMap_eq_nil_iff]
  intro y hy
  simp only [List.cons_append, List.mem_cons, List.mem_append, List.mem_map, List.not_mem_nil, or_false] at hy
  rcases hy with rfl | ⟨m, _, rfl⟩ | rfl <;> rfl

/-- Other inputs leave the votes alone. -/
theorem bystander {e : Env T} {i : Input T} {s : State T} (hst : i ≠ .start) (hv : ∀ sv, i ≠ .verified (.signedVote sv))
    (ho : ∀ t b lr, ¬ VoteInput i t b lr) (hq : ∀ qc, BringsQc i qc → ¬ (qc.height = h ∧ qc.round = r ∧ qc.voteType = ty))
    (hh : s.height = h) :
    s.height ≤ (runArm i e ⟨s, []⟩).2.st.height ∧
    ((runArm i e ⟨s, []⟩).2.st.height = h → poolD (runArm i e ⟨s, []⟩).2.st.votes h r ty = poolD s.votes h r ty ∧
      qcId (runArm i e ⟨s, []⟩).2.st.votes h r ty = qcId s.votes h r ty) ∧
    certified (runArm i e ⟨s, []⟩).2.log h r ty = [] ∧ ownVotes (runArm i e ⟨s, []⟩).2.log = [] := by
  refine arm_inv (P := fun w => s.height ≤ w.st.height ∧ (w.st.height = h → poolD w.st.votes h r ty = poolD s.votes h r ty ∧
      qcId w.st.votes h r ty = qcId s.votes h r ty) ∧ certified w.log h r ty = [] ∧ ownVotes w.log = [])
    ⟨Nat.le_refl _, fun _ => ⟨rfl, rfl⟩, rfl, rfl⟩ ?_
  rintro w eff s' ⟨h1, h2, h3, h4⟩ hm
  have hup := Early.height_up hst hm
  refine ⟨Nat.le_trans h1 hup, ?_, ?_, ?_⟩
  · intro hs'
    dsimp only at hs' ⊢
    have hw : w.st.height = h := by omega
    obtain ⟨h5, h6⟩ := h2 hw
    cases hm with
    | recvQc qc hi hw =>
      have hb : BringsQc i qc := by
        rcases hi with hi | ⟨sc, g1, _, _, g4⟩
        · exact .inl hi
        · exact .inr ⟨sc, g1, g4⟩
      have := hq qc hb
      refine ⟨by rw [poolD_setQc]; exact h5, ?_⟩
      rw [qcId_setQc, if_neg this]; exact h6
    | genQc t b vs sig hi =>
      rcases hi with ⟨b, lr, hi, _⟩ | ⟨sv, hi, _⟩
      · exact absurd hi (ho _ _ _)
      · exact absurd hi (hv _)
    | recvVote sv hi => exact absurd hi (hv _)
    | castVote t b lr lock sv _ hi => exact absurd hi (ho _ _ _)
    | move st _ g => exact absurd (show st.height = h from hs') (by omega)
    | moveLost st _ _ g => exact absurd (show st.height = h from hs') (by omega)
    | adopt st _ _ g => exact absurd (show st.height = h from hs') (by omega)
    | restoreLock w b lock g => exact absurd g hst
    | _ => exact ⟨h5, h6⟩
  · dsimp only
    rw [certified_append, h3, List.nil_append]
    cases hm with
    | genQc t b vs sig hi =>
      rcases hi with ⟨b, lr, hi, _⟩ | ⟨sv, hi, _⟩
      · exact absurd hi (ho _ _ _)
      · exact absurd hi (hv _)
    | castVote t b lr lock sv _ hi => exact absurd hi (ho _ _ _)
    | enterRound => split <;> rfl
    | adopt => exact adopt_none _ _ _ _
    | _ => rfl
  · dsimp only
    rw [ownVotes_append, h4, List.nil_append]
    cases hm with
    | castVote t b lr lock sv _ hi => exact absurd hi (ho _ _ _)
    | enterRound => split <;> rfl
    | adopt => exact adopt_own _ _ _ _
    | _ => rfl

/-! ## Own votes -/

/-- What counting leaves, for a state with these votes. -/
def Counted (e : Env T) (s : State T) (c : VoteCollector) (t : VoteType) (pre : List (Effect T)) (w : World T) : Prop :=
  (∃ x, countOut e s c t = .error x ∧ w.st = { s with votes := c } ∧ w.log = pre) ∨
  (countOut e s c t = .ok none ∧ w.st = { s with votes := c } ∧ w.log = pre) ∨
  ∃ qc g, countOut e s c t = .ok (some qc) ∧ w.st = { s with votes := c.setQc qc } ∧
    w.log = pre ++ .broadcast (.aggregatedVote qc) :: g ∧ ∀ y ∈ g, ∃ t, y = .trigger t

theorem counted_leader (e : Env T) (s : State T) (c : VoteCollector) (t : VoteType) (pre : List (Effect T)) (hl : s.isLeader = true) :
    wp (voteProcess t) e ⟨{ s with votes := c }, pre⟩ (fun _ => Counted e s c t pre) (fun _ => Counted e s c t pre) := by
  have hrun : voteProcess t e ⟨{ s with votes := c }, pre⟩ =
      match countOut e s c t with
      | .error x => (.error x, ⟨{ s with votes := c }, pre⟩)
      | .ok none => (.ok (), ⟨{ s with votes := c }, pre⟩)
      | .ok (some qc) => (.ok (), ⟨{ s with votes := c.setQc qc }, pre ++ .broadcast (.aggregatedVote qc) ::
          if s.tryGetFullTxs qc.blockHash = false then [] else
            [.trigger (stTrigger t.toTrigger qc.blockHash none s.round s.height)]⟩) := by
    unfold voteProcess
    runs
    have h0 : ¬ ({ s with votes := c } : State T).isLeader = false := by simp [hl]
    rw [if_neg h0]
    unfold countVotes countOut
    runs
    cases countingVote e.sh s.authority c s.height s.round t with
    | error x => rfl
    | ok o =>
      cases o with
      | none => rfl
      | some b =>
        unfold generateQc aggregateSignatures broadcast
        runs
        cases c.getVotes e.sh s.height s.round t b with
        | error x => rfl
        | ok vs =>
          dsimp only
          cases e.crypto.aggregate ((sortVotes vs).map SignedVote.signature) ((sortVotes vs).map SignedVote.voter) with
          | none => rfl
          | some sig =>
            simp only [some!]
            split
            · rename_i hx
              have hx' : s.tryGetFullTxs b = false := hx
              simp only [pure_run, hx', if_true]
            · rename_i hx
              have hx' : ¬ s.tryGetFullTxs b = false := hx
              simp only [emit_run, List.append_assoc, List.singleton_append]
              rw [if_neg hx']
  unfold wp
  rw [hrun]
  cases hc : countOut e s c t with
  | error x => exact .inl ⟨x, hc, rfl, rfl⟩
  | ok o =>
    cases o with
    | none => exact .inr (.inl ⟨hc, rfl, rfl⟩)
    | some qc =>
      refine .inr (.inr ⟨qc, _, hc, rfl, rfl, ?_⟩)
      intro y hy
      split at hy
      · simp at hy
      · simp only [List.mem_singleton] at hy; exact ⟨_, hy⟩

/-- What an order to vote does: nothing to the votes, or it puts the own vote in and counts. -/
def Voted (e : Env T) (s : State T) (t : VoteType) (w : World T) : Prop :=
  (w.st = s ∧ certified w.log h r ty = [] ∧ ownVotes w.log = []) ∨
  ∃ sv wal, s.isLeader = true ∧ sv.voter = s.address ∧ sv.vote.height = s.height ∧ sv.vote.round = s.round ∧ sv.vote.voteType = t ∧
    Counted e s (s.votes.insertVote sv.vote.blockHash sv sv.voter) t [.saveWal wal true, .ownVote sv] w

theorem voted (e : Env T) (s : State T) (b : Hash) (t : VoteType) (lr : Option Nat) :
    wp (handleVoteEvent b t lr) e ⟨s, []⟩ (fun _ => Voted (h := h) (r := r) (ty := ty) e s t) (fun _ => Voted (h := h) (r := r) (ty := ty) e s t) := by
  unfold handleVoteEvent signVote
  wps
  refine ⟨fun sig hsig => ?_, fun _ => .inl ⟨rfl, rfl, rfl⟩⟩
  refine wp_saveWalLR (fun _ => .inl ⟨rfl, rfl, rfl⟩) (fun lock b' hl e1 e2 => .inl ⟨rfl, rfl, rfl⟩) (fun lock b' hl e1 e2 => ?_)
  refine ⟨fun hlead => ?_, fun hlead => ?_⟩
  · refine wp_mono (counted_leader e s _ t _ hlead) (fun _ w hw => ?_) (fun _ w hw => ?_)
    all_goals exact .inr ⟨⟨sig, ⟨s.height, s.round, t, b⟩, s.address⟩, _, hlead, rfl, rfl, rfl, rfl, hw⟩
  · have hlead := (Bool.not_eq_true _).mp hlead
    unfold transmit
    wps
    unfold voteProcess
    wps
    refine ⟨fun _ => ?_, fun hc => absurd hlead hc⟩
    split
    · wps
      exact ⟨fun _ => .inl ⟨rfl, rfl, rfl⟩, fun _ => .inl ⟨rfl, rfl, rfl⟩⟩
    · wps
      exact .inl ⟨rfl, rfl, rfl⟩

theorem voted_arm {e : Env T} {i : Input T} {s : State T} {b : Hash} {t : VoteType} {lr : Option Nat} (hi : VoteInput i t b lr) :
    Voted (h := h) (r := r) (ty := ty) e s t (runArm i e ⟨s, []⟩).2 := by
  obtain ⟨k, q, hi⟩ := hi
  refine wp_post ?_
  subst hi
  have key := voted (h := h) (r := r) (ty := ty) e s b t lr
  cases t <;>
  · unfold runArm handleEvent
    wps
    refine ⟨fun _ => .inl ⟨rfl, rfl, rfl⟩, fun _ => ⟨fun _ => .inl ⟨rfl, rfl, rfl⟩, fun _ => ?_⟩⟩
    refine wp_mono key (fun _ w hw => hw) (fun x w hw => ⟨fun _ => ⟨fun _ => hw, fun hc => absurd rfl hc⟩, fun _ => hw⟩)

theorem certified_pre {pre g : List (Effect T)} {qc : AggregatedVote} (hp : certified pre h r ty = []) (hg : ∀ y ∈ g, ∃ t, y = .trigger t) :
    certified (pre ++ .broadcast (.aggregatedVote qc) :: g) h r ty =
      if qc.height = h ∧ qc.round = r ∧ qc.voteType = ty then [qc.blockHash] else [] := by
  have h1 : certified g h r ty = [] := by
    unfold certified
    rw [List.filterMap_eq_nil_iff]
    intro y hy
    obtain ⟨t, rfl⟩ := hg y hy
    rfl
  have h2 : pre ++ .broadcast (.aggregatedVote qc) :: g = (pre ++ [.broadcast (.aggregatedVote qc)]) ++ g := by simp
  rw [h2, certified_append, certified_append, hp, h1, List.append_nil, List.nil_append]
  unfold certified
  by_cases hcc : qc.height = h ∧ qc.round = r ∧ qc.voteType = ty
  · simp [hcc]
  · simp [hcc]

theorem counted_ok (hd : Distinct l) (hz : Sized l) {e : Env T} {s : State T} {c : VoteCollector} {t : VoteType} {pre : List (Effect T)}
    {w : World T} {kept kept' : List VoteOp} (hc : Counted e s c t pre w) (hL : Led l h r ty s kept)
    (hp : poolD c h r ty = poolD (kept'.foldl applyVoteOp []) h r ty) (hv : VotersIn kept' l)
    (hqc : qcId c h r ty = qcId s.votes h r ty) (hpre : certified pre h r ty = [])
    (hnew : t = ty ∨ ∀ x, Quorum l (votedFor kept' h r ty x) → Quorum l (votedFor kept h r ty x)) :
    Led l h r ty w.st kept' ∧ (∀ x ∈ certified w.log h r ty, Quorum l (votedFor kept' h r ty x)) ∧
      (noCert h r ty s → (∀ x, ¬ Quorum l (votedFor kept' h r ty x)) → noCert h r ty w.st) ∧
      (total l < 2 ^ 32 → (∀ sigs voters, (e.crypto.aggregate sigs voters).isSome) → (∀ x, ¬ Quorum l (votedFor kept h r ty x)) →
        ∀ x, Quorum l (votedFor kept' h r ty x) → x ∈ certified w.log h r ty) := by
  have no : (∀ qc, countOut e s c t ≠ .ok (some qc)) → total l < 2 ^ 32 → (∀ sigs voters, (e.crypto.aggregate sigs voters).isSome) →
      (∀ x, ¬ Quorum l (votedFor kept h r ty x)) → ∀ x, ¬ Quorum l (votedFor kept' h r ty x) := by
    intro hno ht hg hnq x hq
    rcases hnew with rfl | hnew
    · obtain ⟨qc, hqc, _⟩ := countOut_complete hd hz ht hL.height hL.round hL.auth hp hv hg hq
      exact hno qc hqc
    · exact hnq x (hnew x hq)
  rcases hc with ⟨x, h1, h2, h3⟩ | ⟨h1, h2, h3⟩ | ⟨qc, g, h1, h2, h3, h4⟩
  · refine ⟨by rw [h2]; exact ⟨hL.height, hL.round, hL.auth, hp, hv⟩, by rw [h3, hpre]; simp, fun hn _ => ?_, fun ht hg hnq x hq => ?_⟩
    · unfold noCert at *; rw [h2]; exact hqc.trans hn
    · exact absurd hq (no (by rw [h1]; simp) ht hg hnq x)
  · refine ⟨by rw [h2]; exact ⟨hL.height, hL.round, hL.auth, hp, hv⟩, by rw [h3, hpre]; simp, fun hn _ => ?_, fun ht hg hnq x hq => ?_⟩
    · unfold noCert at *; rw [h2]; exact hqc.trans hn
    · exact absurd hq (no (by rw [h1]; simp) ht hg hnq x)
  · have hty := countOut_type h1
    have hsnd : t = ty → qc.height = h ∧ qc.round = r ∧ qc.voteType = ty ∧ Quorum l (votedFor kept' h r ty qc.blockHash) := by
      rintro rfl
      exact countOut_sound hd hz hL.height hL.round hL.auth hp hv h1
    rw [h3, certified_pre hpre h4, h2]
    refine ⟨⟨hL.height, hL.round, hL.auth, by rw [poolD_setQc]; exact hp, hv⟩, ?_, ?_, ?_⟩
    · intro x hx
      split at hx
      · rename_i hcc
        simp only [List.mem_singleton] at hx
        subst hx
        exact (hsnd (by rw [← hty]; exact hcc.2.2)).2.2.2
      · simp at hx
    · intro hn hnq'
      unfold noCert at *
      rw [qcId_setQc, if_neg, hqc, hn]
      rintro ⟨_, _, ht⟩
      exact hnq' _ (hsnd (by rw [← hty]; exact ht)).2.2.2
    · intro ht hg hnq x hq
      rcases hnew with rfl | hnew
      · obtain ⟨qc', hqc', ha, hb, hcc, hdd⟩ := countOut_complete hd hz ht hL.height hL.round hL.auth hp hv hg hq
        rw [hqc'] at h1
        simp only [Except.ok.injEq, Option.some.injEq] at h1
        subst h1
        rw [if_pos ⟨ha, hb, hcc⟩, hdd]
        simp
      · exact absurd (hnew x hq) (hnq x)

/-- Only orders to vote make own votes. -/
theorem no_own {e : Env T} {i : Input T} {s : State T} (ho : ∀ t b lr, ¬ VoteInput i t b lr) : ownVotes (runArm i e ⟨s, []⟩).2.log = [] := by
  refine arm_inv (P := fun w => ownVotes w.log = []) rfl ?_
  rintro w eff s' h4 hm
  dsimp only
  rw [ownVotes_append, h4, List.nil_append]
  cases hm with
  | castVote t b lr lock sv _ hi => exact absurd hi (ho _ _ _)
  | enterRound => split <;> rfl
  | adopt => exact adopt_own _ _ _ _
  | _ => rfl

/-! ## One input -/

theorem one (hd : Distinct l) (hz : Sized l) {s : State T} {kept : List VoteOp} {e : Env T} {i : Input T}
    (hpw : s.consensusPower = true) (hw : NoWrap s) (hm : s.address ∈ l.map Node.address) (hL : Led l h r ty s kept) (hi : AtItsRound ty e i s) :
    ∃ kept', StepOk l h r ty s (next e i s) (effects e i s) (handedIn i ++ ownVotes (effects e i s)) kept kept'
      (total l < 2 ^ 32 ∧ ∀ sigs voters, (e.crypto.aggregate sigs voters).isSome) := by
  by_cases hsv : ∃ sv, i = .verified (.signedVote sv)
  · obtain ⟨sv, rfl⟩ := hsv
    obtain ⟨s', f, kept', hrun, _, _, hL', hk, hsnd, h1, h4, h5, _⟩ := step hd hz sv e hpw hw hL
    have hn : next e (.verified (.signedVote sv)) s = s' := by unfold next; rw [hrun]
    have hf : effects e (.verified (.signedVote sv)) s = f := by unfold effects; rw [hrun]
    have hown : ownVotes (effects e (.verified (.signedVote sv)) s) = [] :=
      no_own (fun t b lr hv => by obtain ⟨_, _, hv⟩ := hv; cases hv)
    rw [hown, List.append_nil, hn, hf]
    refine ⟨kept', hL', ?_, hsnd, ?_, h4, fun ha hnq x hq => h5 ha.1 ha.2 hnq x hq⟩
    · rcases hk with hk | ⟨hk, _⟩
      · exact .inl hk
      · exact .inr hk
    · intro hno n hl
      show _ = firstVote (kept ++ [.vote sv]) h r ty n.address
      rcases hk with rfl | ⟨rfl, _⟩
      · by_cases ha : atSlot h r ty sv
        · by_cases hmem : sv.voter ∈ l.map Node.address
          · have := h1 hno ha hmem
            simp at this
          · rw [firstVote_append, first_one_other (.inl fun hc => hmem (by rw [hc]; exact List.mem_map_of_mem hl)), Option.or_none]
        · rw [firstVote_append, first_one_other (.inr ha), Option.or_none]
      · rfl
  have hhand : handedIn i = [] := by
    unfold handedIn
    split
    · rename_i sv; exact absurd ⟨sv, rfl⟩ hsv
    · rfl
  by_cases hv : ∃ t b lr, VoteInput i t b lr
  · obtain ⟨t, b, lr, hv⟩ := hv
    have hvd := voted_arm (h := h) (r := r) (ty := ty) (e := e) (s := s) hv
    rw [hhand, List.nil_append]
    rcases hvd with ⟨g1, g2, g3⟩ | ⟨sv, wal, g1, g2, g3, g4, g5, g6⟩
    · refine ⟨kept, ?_, .inl rfl, ?_, ?_, ?_, ?_⟩
      · show Led l h r ty (runArm i e ⟨s, []⟩).2.st kept
        rw [g1]; exact hL
      · show ∀ x ∈ certified (runArm i e ⟨s, []⟩).2.log h r ty, _
        rw [g2]; simp
      · intro _ n _
        show _ = firstVote (kept ++ ownVotes (runArm i e ⟨s, []⟩).2.log) h r ty n.address
        rw [g3, List.append_nil]
      · intro hn _ _
        show noCert h r ty (runArm i e ⟨s, []⟩).2.st
        rw [g1]; exact hn
      · intro _ hnq x hq; exact absurd hq (hnq x)
    · have hmem : VotersIn (kept ++ [.vote sv]) l := by
        intro v hv
        simp only [List.mem_append, List.mem_singleton, VoteOp.vote.injEq] at hv
        rcases hv with hv | rfl
        · exact hL.members v hv
        · rw [g2]; exact hm
      have hpool := poolD_snoc (h := h) (r := r) (ty := ty) kept s.votes sv hL.pool
      obtain ⟨k1, k2, k3, k4⟩ := counted_ok hd hz g6 hL hpool hmem (qcId_insertVote ..) rfl (by
        by_cases ht : t = ty
        · exact .inl ht
        · refine .inr fun x hq => (quorum_congr ?_).1 hq
          intro n _
          unfold votedFor
          rw [firstVote_other kept sv (fun ha => ht (by rw [← g5]; exact ha.2.2))])
      have hown : ownVotes (effects e i s) = [.vote sv] := by
        unfold effects
        rcases g6 with ⟨_, _, _, g⟩ | ⟨_, _, g⟩ | ⟨qc, tr, _, _, g, gt⟩
        · rw [g]; rfl
        · rw [g]; rfl
        · rw [g, ownVotes_append]
          have : ownVotes (.broadcast (.aggregatedVote qc) :: tr) = [] := by
            unfold ownVotes
            rw [List.filterMap_eq_nil_iff]
            intro y hy
            simp only [List.mem_cons] at hy
            rcases hy with rfl | hy
            · rfl
            · obtain ⟨_, rfl⟩ := gt y hy; rfl
          rw [this]; rfl
      rw [hown]
      refine ⟨kept ++ [VoteOp.vote sv], ?_⟩
      exact ⟨k1, .inr rfl, k2, fun _ _ _ => rfl, fun hn _ hq => k3 hn hq, fun ha hnq x hq => k4 ha.1 ha.2 hnq x hq⟩
  · have hb := bystander (h := h) (r := r) (ty := ty) (e := e) (i := i) (s := s) hi.noRestart (fun sv hc => hsv ⟨sv, hc⟩)
      (fun t b lr hc => hv ⟨t, b, lr, hc⟩) (fun qc hq => by rw [← hL.height, ← hL.round]; exact hi.noCert qc hq) hL.height
    obtain ⟨_, b2, b3, b4⟩ := hb
    obtain ⟨b5, b6⟩ := b2 (by rw [← hL.height]; exact hi.height)
    have hown : ownVotes (effects e i s) = [] := b4
    rw [hhand, hown, List.nil_append]
    refine ⟨kept, ⟨hi.height.trans hL.height, hi.round.trans hL.round, hi.authority.trans hL.auth, ?_, hL.members⟩, .inl rfl, ?_, ?_, ?_, ?_⟩
    · exact b5.trans hL.pool
    · show ∀ x ∈ certified (runArm i e ⟨s, []⟩).2.log h r ty, _
      rw [b3]; simp
    · intro _ n _; rw [List.append_nil]
    · intro hn _ _
      exact b6.trans hn
    · intro _ hnq x hq; exact absurd hq (hnq x)

/-! ## Histories -/

theorem trace_cons {s : State T} {e : Env T} {i : Input T} {ins : List (Env T × Input T)} (hg : (runArm i e ⟨s, []⟩).1 = .ok true) :
    s.trace ((e, i) :: ins) = effects e i s ++ (next e i s).trace ins := by
  unfold effects next
  cases hr : runArm i e ⟨s, []⟩ with
  | mk x w =>
    rw [hr] at hg
    dsimp only at hg
    subst hg
    simp only [State.trace, hr]

theorem noWrap_next {e : Env T} {i : Input T} {s : State T} (hw : NoWrap s) (hi : AtItsRound ty e i s) : NoWrap (next e i s) := by
  unfold NoWrap at *
  rw [hi.height, hi.round]; exact hw

theorem sound_all (hd : Distinct l) (hz : Sized l) (ins : List (Env T × Input T)) :
    ∀ (s : State T) (kept ops : List VoteOp), s.consensusPower = true → NoWrap s → s.address ∈ l.map Node.address →
      Count l h r ty s kept ops → KeepsItsRound ty s ins →
      ∀ x ∈ certified (s.trace ins) h r ty, Quorum l (votedFor (ops ++ votesSeen s ins) h r ty x) := by
  induction ins with
  | nil => intro s kept ops _ _ _ _ _ x hx; simp [State.trace, certified] at hx
  | cons p ins ih =>
    intro s kept ops hpw hw hm hc hs x hx
    obtain ⟨e, i⟩ := p
    obtain ⟨hi, hs⟩ := hs
    obtain ⟨kept', hk⟩ := one hd hz hpw hw hm hc.1 hi
    obtain ⟨hc', h1, _⟩ := count_step hc hk
    rw [trace_cons hi.goesOn, certified_append, List.mem_append] at hx
    have ha : ops ++ votesSeen s ((e, i) :: ins) = (ops ++ (handedIn i ++ ownVotes (effects e i s))) ++ votesSeen (next e i s) ins := by
      simp [votesSeen]
    rw [ha]
    rcases hx with hx | hx
    · exact quorum_append _ (h1 x hx)
    · exact ih _ kept' _ (hi.power.trans hpw) (noWrap_next hw hi) (by rw [hi.address]; exact hm) hc' hs x hx

theorem complete_all (hd : Distinct l) (hz : Sized l) (ht : total l < 2 ^ 32) (ins : List (Env T × Input T)) :
    ∀ (s : State T) (kept ops : List VoteOp), s.consensusPower = true → NoWrap s → s.address ∈ l.map Node.address →
      Count l h r ty s kept ops → KeepsItsRound ty s ins → (∀ x, ¬ Quorum l (votedFor kept h r ty x)) → noCert h r ty s →
      (∀ p ∈ ins, ∀ sigs voters, (p.1.crypto.aggregate sigs voters).isSome) →
      ∀ x, Quorum l (votedFor (ops ++ votesSeen s ins) h r ty x) → x ∈ certified (s.trace ins) h r ty := by
  induction ins with
  | nil =>
    intro s kept ops _ _ _ hc _ hnq _ _ x hx
    rcases hc.2 with ⟨_, he, _⟩ | ⟨y, hy, _⟩
    · refine absurd ((quorum_congr fun n hl => ?_).1 hx) (hnq x)
      unfold votedFor votesSeen
      rw [List.append_nil, he n hl]
    · exact absurd hy (hnq y)
  | cons p ins ih =>
    intro s kept ops hpw hw hm hc hs hnq hn hg x hx
    obtain ⟨e, i⟩ := p
    obtain ⟨hi, hs⟩ := hs
    obtain ⟨kept', hk⟩ := one hd hz hpw hw hm hc.1 hi
    obtain ⟨hc', _, h2⟩ := count_step hc hk
    rw [trace_cons hi.goesOn, certified_append, List.mem_append]
    have ha : ops ++ votesSeen s ((e, i) :: ins) = (ops ++ (handedIn i ++ ownVotes (effects e i s))) ++ votesSeen (next e i s) ins := by
      simp [votesSeen]
    rw [ha] at hx
    by_cases hq : ∃ y, Quorum l (votedFor kept' h r ty y)
    · obtain ⟨y, hy⟩ := hq
      have hmk := h2 ⟨ht, hg _ List.mem_cons_self⟩ y hn hnq hy
      have hyo : Quorum l (votedFor (ops ++ (handedIn i ++ ownVotes (effects e i s))) h r ty y) := (count_step hc hk).2.1 y hmk
      obtain rfl := C12_at_most_one_elected _ l h r ty x y hx (quorum_append _ hyo)
      exact .inl hmk
    · have hnq' : ∀ y, ¬ Quorum l (votedFor kept' h r ty y) := fun y hy => hq ⟨y, hy⟩
      exact .inr (ih _ kept' _ (hi.power.trans hpw) (noWrap_next hw hi) (by rw [hi.address]; exact hm) hc' hs hnq' (hk.quiet hn hnq hnq')
        (fun p hp => hg p (List.mem_cons_of_mem _ hp)) x hx)

end Overlord.Certs
