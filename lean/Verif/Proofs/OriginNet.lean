import Verif.Proofs.OriginNode
import Verif.Proofs.Signed

/-! Where the blocks in a network come from (used for C59). -/

set_option linter.unusedSimpArgs false
set_option linter.unusedVariables false
set_option linter.unusedSectionVars false
set_option linter.unnecessarySeqFocus false

namespace Overlord
open M Spec

variable {T : Type} [ContentCodec T] [DecidableEq T]

namespace Origin

theorem cutTo_take (cut : Option Nat) (l : List (Effect T)) : ∃ j, cutTo cut l = l.take j := by
  cases cut with
  | none => exact ⟨l.length, by simp [cutTo]⟩
  | some k => exact ⟨k, rfl⟩

theorem asks_power {e : Env T} {s : State T} {i : Input T} {k : Nat} {res : Option (T × Hash)}
    (h : .getBlock k res ∈ (runArm i e ⟨s, []⟩).2.log) : s.consensusPower = true := by
  cases hp : s.consensusPower with
  | true => rfl
  | false =>
    exfalso
    by_cases hi : ∃ r lr lp f, NewRoundInput i r lr lp f
    · obtain ⟨r, lr, lp, f, h', ni, nc, rfl⟩ := hi
      rw [event_idle (.inl hp)] at h
      cases h
    · obtain ⟨s1, eff, s2, -, hm, hx⟩ := arm_effect (P := fun _ => True) trivial (fun _ _ _ _ _ => trivial) h
      exact (micro_plain (fun r lr lp f h => hi ⟨r, lr, lp, f, h⟩) hm _ hx).1 _ _ rfl

/-- Where a block comes from. -/
def Org (mode : LeaderMode) (lists : Nat → List Node) (correct : Address → Bool) (as : List (Address × NAct T)) (N : NetSys T) : Known T :=
  fun k h c => MadeByCorrect mode lists correct N k h c ∨ ProposedByFaulty mode lists correct as k h c

/-- Nothing is asked of certificates. -/
abbrev AnyCert : Certs := fun _ _ _ _ => True

/-- What is known about a network. -/
structure OrgNet (mode : LeaderMode) (lists : Nat → List Node) (correct : Address → Bool) (as : List (Address × NAct T)) (N : NetSys T) : Prop where
  gen : ∀ a, correct a = true → GenNode lists (fun _ => True) AnyCert a (N.nodes a)
  log : ∀ a, correct a = true → ∀ x ∈ (N.nodes a).log, EffKnown (Org mode lists correct as N) x
  asks : ∀ a, correct a = true → ∀ k res, .getBlock k res ∈ (N.nodes a).log → ∃ r, LeaderOf mode lists k r a
  up : ∀ a, correct a = true → (N.nodes a).down = false → StKnown (Org mode lists correct as N) mode lists (N.nodes a).st

theorem orgNet_new (mode : LeaderMode) (lists : Nat → List Node) (correct : Address → Bool) :
    OrgNet mode lists correct [] (NetSys.new : NetSys T) := by
  refine ⟨fun a _ => ⟨?_, ?_, ?_⟩, fun a _ => ?_, fun a _ => ?_, fun a _ => ?_⟩ <;> simp [NetSys.new, NodeSys.new, NodeSys.fresh]

theorem stepsOf_app (a : Address) (as bs : List (Address × NAct T)) : stepsOf a (as ++ bs) = stepsOf a as ++ stepsOf a bs := by
  simp [stepsOf, List.filterMap_append]

theorem TookUp.app {a : Address} {as bs : List (NAct T)} {k : Nat} {m : OverlordMsg T} (h : TookUp a as k m) : TookUp a (as ++ bs) k m := by
  obtain ⟨as1, e, cut, as2, n, q, h1, h2⟩ := h
  exact ⟨as1, e, cut, as2 ++ bs, n, q, by rw [h1]; simp, h2⟩

theorem Org.mono {mode : LeaderMode} {lists : Nat → List Node} {correct : Address → Bool} {as : List (Address × NAct T)} {N N' : NetSys T}
    {a : Address} {x : NAct T} (ha : N.act a x = some N') : ∀ k h c, Org mode lists correct as N k h c → Org mode lists correct (as ++ [(a, x)]) N' k h c := by
  have hlog : ∀ b, ∀ y ∈ (N.nodes b).log, y ∈ (N'.nodes b).log := by
    unfold NetSys.act at ha
    split at ha
    · cases ha
    · rename_i n hn
      cases ha
      intro b y hy
      by_cases hb : b = a
      · subst hb
        simp only [if_true]
        obtain ⟨l, hl⟩ := act_grows hn
        rw [hl]; exact List.mem_append_left _ hy
      · simpa [hb] using hy
  rintro k h c (⟨b, r, h1, h2, h3⟩ | ⟨sp, h1, h2, h3, h4, h5, b, h6, h7⟩)
  · exact .inl ⟨b, r, h1, h2, hlog b _ h3⟩
  · refine .inr ⟨sp, h1, h2, h3, h4, h5, b, h6, ?_⟩
    rw [stepsOf_app]; exact TookUp.app h7

theorem orgNet_step {mode : LeaderMode} {lists : Nat → List Node} {correct : Address → Bool} (hgl : GoodLists lists)
    {as : List (Address × NAct T)} {N N' : NetSys T} {a : Address} {x : NAct T} (hr : NetSys.new.run as = some N)
    (h : OrgNet mode lists correct as N) (ok : correct a = true → OriginStep mode lists correct N a x) (ha : N.act a x = some N') :
    OrgNet mode lists correct (as ++ [(a, x)]) N' := by
  have hmono := Org.mono (mode := mode) (lists := lists) (correct := correct) (as := as) ha
  have ha0 := ha
  unfold NetSys.act at ha
  split at ha
  · cases ha
  rename_i n hn
  have e0 : N'.nodes = fun b => if b = a then n else N.nodes b := by cases ha; rfl
  have ea : N'.nodes a = n := by rw [e0]; simp
  have eb : ∀ b, b ≠ a → N'.nodes b = N.nodes b := by intro b hb; rw [e0]; simp [hb]
  clear e0 ha
  generalize hO : Org mode lists correct (as ++ [(a, x)]) N' = O at hmono
  -- the node that takes the step
  have main : correct a = true → GenNode lists (fun _ => True) AnyCert a n ∧ (∀ x ∈ n.log, EffKnown O x) ∧
      (∀ k res, .getBlock k res ∈ n.log → ∃ r, LeaderOf mode lists k r a) ∧ (n.down = false → StKnown O mode lists n.st) := by
    intro hc
    have o := ok hc
    have hg := h.gen a hc
    have gen' : GenNode lists (fun _ => True) AnyCert a n := by
      refine gen_step (V := fun _ => True) (B := AnyCert) hgl (fun _ h => h) (fun _ _ _ _ h => h) (fun _ _ _ _ _ _ _ => trivial) hg
        ⟨o.start, o.answers, o.saves, o.given⟩ ?_ hn (fun _ _ _ _ _ => trivial)
      intro e cut hx m q hq hm
      subst hx
      cases m with
      | richStatus st => exact o.status st q hq
      | signedProposal sp => exact fun _ _ => ⟨[], trivial⟩
      | signedChoke sc => exact fun _ _ _ _ => trivial
      | _ => trivial
    refine ⟨gen', ?_⟩
    have old : ∀ y ∈ (N.nodes a).log, EffKnown O y := fun y hy => (h.log a hc y hy).mono hmono
    rcases act_log hn with ⟨e1, e2⟩ | ⟨i, e, cut, s, e1, e2, hcase⟩
    · rw [e1]
      refine ⟨old, h.asks a hc, fun hd => ?_⟩
      obtain ⟨e3, e4⟩ := e2 hd
      rw [e4]; exact (h.up a hc e3).mono hmono
    · -- what is logged
      have fin : (∀ k res, .getBlock k res ∈ (runArm i e ⟨s, []⟩).2.log → ∃ r, LeaderOf mode lists k r a) →
          StKnown (Plus O (runArm i e ⟨s, []⟩).2.log) mode lists (runArm i e ⟨s, []⟩).2.st →
          (∀ j, ∀ x ∈ (runArm i e ⟨s, []⟩).2.log.take j, EffKnown (Plus O ((runArm i e ⟨s, []⟩).2.log.take j)) x) →
          (∀ x ∈ n.log, EffKnown O x) ∧
            (∀ k res, .getBlock k res ∈ n.log → ∃ r, LeaderOf mode lists k r a) ∧ (n.down = false → StKnown O mode lists n.st) := by
        intro k1 k2 k3
        obtain ⟨j, hj⟩ := cutTo_take cut (runArm i e ⟨s, []⟩).2.log
        have plus : ∀ k x c, Plus O (cutTo cut (runArm i e ⟨s, []⟩).2.log) k x c → O k x c := by
          rintro k x c (g | g)
          · exact g
          · obtain ⟨r, hr⟩ := k1 _ _ (cut_mem g)
            rw [← hO]
            refine .inl ⟨a, r, hc, hr, ?_⟩
            rw [ea, e1]; exact List.mem_append_right _ g
        refine ⟨?_, ?_, ?_⟩
        · rw [e1]
          intro y hy
          rcases List.mem_append.1 hy with hy | hy
          · exact old y hy
          · rw [hj] at hy plus; exact (k3 j y hy).mono plus
        · rw [e1]
          intro k res hy
          rcases List.mem_append.1 hy with hy | hy
          · exact h.asks a hc k res hy
          · exact k1 k res (cut_mem hy)
        · intro hd
          obtain ⟨rfl, e4⟩ := e2 hd
          rw [e4]; exact k2.mono plus
      rcases hcase with ⟨hd, rfl, hi, y, n1, htk, rfl⟩ | ⟨hd, rfl, p, rfl, rfl⟩
      · obtain ⟨hst, hadr⟩ := (hg.up hd).st
        have hmo : e.mode = mode := o.mode
        have hin : InKnown O mode lists (N.nodes a).st i := by
          cases i with
          | verified m =>
            cases m with
            | signedProposal sp =>
              intro hp hh hlead
              have hya : y = .verified ∧ ∃ q, (N.nodes a).verifiedQ = .signedProposal sp :: q := by
                cases y with
                | verified =>
                  refine ⟨rfl, ?_⟩
                  simp only [NodeSys.take] at htk
                  split at htk
                  · cases htk
                  · rename_i m' q hq
                    simp only [Option.some.injEq, Prod.mk.injEq, Input.verified.injEq] at htk
                    obtain ⟨rfl, _⟩ := htk
                    exact ⟨q, hq⟩
                | raw m => simp [NodeSys.take] at htk
                | event => simp only [NodeSys.take] at htk; split at htk <;> simp at htk
                | resp => simp only [NodeSys.take] at htk; split at htk <;> simp at htk
              obtain ⟨rfl, q, hq⟩ := hya
              cases hcp : correct sp.proposal.proposer with
              | true =>
                obtain ⟨sp', e3, e4⟩ := o.genuine sp q hq hp hh hcp
                have := (h.log _ hcp _ e4).mono hmono
                have this : O sp'.proposal.height sp'.proposal.blockHash sp'.proposal.content := this
                rw [e3, hh] at this
                exact this
              | false =>
                rw [← hO]
                refine .inr ⟨sp, hh, rfl, rfl, hlead, hcp, a, hc, stepsOf a as, e, cut, [], N.nodes a, q, ?_, net_steps a as _ N hr, hq, rfl⟩
                rw [stepsOf_app]; simp [stepsOf]
            | _ => trivial
          | _ => trivial
        obtain ⟨k2, k3⟩ := arm_known (O := O) (mode := mode) (lists := lists) (e := e) hi hst.filed hst.auth hmo
          ((h.up a hc hd).mono hmono) hin o.saves
        refine fin ?_ k2 k3
        intro k res hx
        obtain ⟨rfl, r, hr⟩ := arm_asked.leads k res hx
        rw [hst.auth (asks_power hx), hadr, hmo] at hr
        exact ⟨r, hr⟩
      · have hmo : e.mode = mode := o.mode
        have hsv : ∀ b, e.walSave b = true := o.saves
        obtain ⟨k2, k3⟩ := start_known (O := O) (mode := mode) (lists := lists) (e := e) (addr := a) (p := p) (by
          intro hli b w hl hd' l hk
          have hst := o.start
          simp only [StartOk, hli, if_true] at hst
          split at hst
          · rw [hl] at hst; cases hst
          · rename_i w' hw'
            obtain ⟨_, b', e3, e4⟩ := hst
            rw [hl] at e3; cases e3
            rw [hd'] at e4; cases e4
            unfold lastSaved at hw'
            have hm := List.mem_of_getLast? hw'
            obtain ⟨y, hy, he⟩ := List.mem_filterMap.1 hm
            have hy2 := old y hy
            cases y with
            | saveWal w0 okk =>
              cases okk with
              | false => simp at he
              | true => simp at he; subst he; exact hy2 l hk
            | _ => simp at he) hsv
        refine fin ?_ (k2.mono fun _ _ _ h => .inl h) (fun j y hy => (k3 y (List.mem_of_mem_take hy)).mono fun _ _ _ h => .inl h)
        intro k res hx
        exfalso
        obtain ⟨s1, eff, s2, -, hm, hx⟩ := arm_effect (P := fun _ => True) trivial (fun _ _ _ _ _ => trivial) hx
        exact (micro_plain (by rintro r lr lp f ⟨_, _, _, h'⟩; cases h') hm _ hx).1 _ _ rfl
  refine ⟨fun b hb => ?_, fun b hb => ?_, fun b hb => ?_, fun b hb => ?_⟩ <;> by_cases hba : b = a
  · subst hba; rw [ea]; exact (main hb).1
  · rw [eb b hba]; exact h.gen b hb
  · subst hba; rw [ea, hO]; exact (main hb).2.1
  · rw [eb b hba, hO]; exact fun y hy => (h.log b hb y hy).mono hmono
  · subst hba; rw [ea]; exact (main hb).2.2.1
  · rw [eb b hba]; exact h.asks b hb
  · subst hba; rw [ea, hO]; exact (main hb).2.2.2
  · rw [eb b hba, hO]; exact fun hd => (h.up b hb hd).mono hmono

theorem orgNet_run {mode : LeaderMode} {lists : Nat → List Node} {correct : Address → Bool} (hgl : GoodLists lists) :
    ∀ (n : Nat) (as : List (Address × NAct T)) (N : NetSys T), as.length = n → NetSys.new.run as = some N →
      OriginSchedule mode lists correct as → OrgNet mode lists correct as N := by
  intro n
  induction n with
  | zero =>
    intro as N hn hr _
    rw [List.length_eq_zero_iff] at hn
    subst hn; cases hr
    exact orgNet_new _ _ _
  | succ n ih =>
    intro as N hn hr ok
    rcases List.eq_nil_or_concat as with rfl | ⟨as', y, rfl⟩
    · simp at hn
    obtain ⟨a, x⟩ := y
    rw [List.concat_eq_append] at *
    obtain ⟨N1, r1, r2⟩ := Sign.run_split as' hr
    simp only [NetSys.run] at r2
    split at r2
    · cases r2
    · rename_i N2 h2
      cases r2
      refine orgNet_step hgl r1 (ih as' N1 (by simpa using hn) r1 (Sign.alongNet_take as' ok)) ?_ h2
      exact Sign.alongNet_split as' ok r1

/-- Logs grow. -/
theorem run_logs : ∀ (as : List (Address × NAct T)) {N N' : NetSys T}, N.run as = some N' → ∀ b, ∃ l, (N'.nodes b).log = (N.nodes b).log ++ l := by
  intro as
  induction as with
  | nil => intro N N' h b; cases h; exact ⟨[], by simp⟩
  | cons y as ih =>
    obtain ⟨a, x⟩ := y
    intro N N' h b
    simp only [NetSys.run] at h
    split at h
    · cases h
    · rename_i N1 h1
      obtain ⟨l, hl⟩ := ih h b
      have : ∃ l, (N1.nodes b).log = (N.nodes b).log ++ l := by
        unfold NetSys.act at h1
        split at h1
        · cases h1
        · rename_i n hn
          cases h1
          by_cases hb : b = a
          · subst hb; simp only [if_true]; exact act_grows hn
          · exact ⟨[], by simp [hb]⟩
      obtain ⟨l', hl'⟩ := this
      exact ⟨l' ++ l, by rw [hl, hl', List.append_assoc]⟩

end Origin
end Overlord
