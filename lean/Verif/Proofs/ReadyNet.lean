import Verif.Proofs.ReadyStep
import Verif.Spec.Orders

/-!
What an order refers to is stored when the State takes it up (used for C53): networks.
-/

set_option linter.unusedSimpArgs false
set_option linter.unusedVariables false
set_option linter.unusedSectionVars false
set_option linter.unnecessarySeqFocus false

namespace Overlord
open M Spec

variable {T : Type} [ContentCodec T] [DecidableEq T]

namespace Rdy

/-- What is known about a network. -/
structure NetReady (f : Hash → Nat × T) (lists : Nat → List Node) (correct : Address → Bool) (N : NetSys T) : Prop where
  gen : NetGen lists correct N
  inv : ∀ a, correct a = true → NodeInv (N.nodes a)
  fit : ∀ a v, correct a = true → (a, v) ∈ N.votes → v.blockHash ≠ [] → (f v.blockHash).1 = v.height
  node : ∀ a, correct a = true → NodeReady f (Certified lists correct N.votes) (N.nodes a)

theorem netReady_new (f : Hash → Nat × T) (lists : Nat → List Node) (correct : Address → Bool) :
    NetReady f lists correct (NetSys.new : NetSys T) := by
  refine ⟨netGen_new _ _, fun a _ => nodeInv_new a, ?_, fun a _ => ⟨?_, ?_⟩⟩
  · intro a v _ hv; simp [NetSys.new] at hv
  · simp [NetSys.new, NodeSys.new, NodeSys.fresh]
  · simp [NetSys.new, NodeSys.new, NodeSys.fresh]

theorem one_of_sorted {l : List SignedVote} (hp : l.Pairwise fun a b => Pos.lt (votePos a) (votePos b)) {v w : SignedVote} (hv : v ∈ l) (hw : w ∈ l)
    (e : votePos v = votePos w) : v = w := by
  induction l with
  | nil => cases hv
  | cons x l ih =>
    rw [List.pairwise_cons] at hp
    rcases List.mem_cons.1 hv with a1 | a1 <;> rcases List.mem_cons.1 hw with a2 | a2
    · rw [a1, a2]
    · have := hp.1 w a2; rw [← a1, e] at this; exact absurd this (Pos.lt_irrefl _)
    · have := hp.1 v a1; rw [← a2, e] at this; exact absurd this (Pos.lt_irrefl _)
    · exact ih hp.2 a1 a2

/-- At most one block is certified in a round. -/
theorem NetReady.uniq {f : Hash → Nat × T} {lists : Nat → List Node} {correct : Address → Bool} {N : NetSys T} (few : FewFaulty lists correct)
    (h : NetReady f lists correct N) : Uniq (Certified lists correct N.votes) := by
  intro k r x y h1 h2
  obtain ⟨a, hc, hx, hy⟩ := cert_inter few h1 h2
  obtain ⟨sv, g1, g2⟩ := (h.gen.mine _ _).1 hx
  obtain ⟨sw, g3, g4⟩ := (h.gen.mine _ _).1 hy
  have hs := (h.inv a hc).good.sorted
  rw [votesOf_obs] at g1 g3
  have : sv = sw := one_of_sorted hs g1 g3 (by simp [votePos, g2, g4])
  rw [this, g4] at g2
  simpa using g2.symm

theorem netReady_step {f : Hash → Nat × T} {lists : Nat → List Node} {correct : Address → Bool} {mode : LeaderMode}
    (hgl : GoodLists lists) (few : FewFaulty lists correct)
    {N N' : NetSys T} {a : Address} {x : NAct T} (h : NetReady f lists correct N)
    (ok : correct a = true → NetStep lists correct N a x ∧ OrderStep f mode N a x)
    (ha : N.act a x = some N') : NetReady f lists correct N' := by
  have hg' := netGen_step hgl h.gen (fun hc => ⟨(ok hc).1.start, (ok hc).1.answers, (ok hc).1.saves, (ok hc).1.given, (ok hc).1.genuine⟩) ha
  have ha0 := ha
  unfold NetSys.act at ha
  split at ha
  · cases ha
  · rename_i n hn
    obtain ⟨l, hl⟩ := act_grows hn
    have hdrop : n.log.drop (N.nodes a).log.length = l := by rw [hl, List.drop_left]
    rw [hdrop] at ha
    cases ha
    have hsub : ∀ y ∈ N.votes, y ∈ N.votes ++ (votesOf l).map fun sv => (a, sv.vote) := fun y hy => List.mem_append_left _ hy
    have hB : ∀ ty k r y, Certified lists correct N.votes ty k r y →
        Certified lists correct (N.votes ++ (votesOf l).map fun sv => (a, sv.vote)) ty k r y := fun _ _ _ _ hc => Certified.mono hsub hc
    have hfit : ∀ b v, correct b = true → (b, v) ∈ N.votes ++ (votesOf l).map (fun sv => (a, sv.vote)) → v.blockHash ≠ [] → (f v.blockHash).1 = v.height := by
      intro b v hc hv hne
      rcases List.mem_append.1 hv with hv | hv
      · exact h.fit b v hc hv hne
      · obtain ⟨sv, h1, h2⟩ := List.mem_map.1 hv
        cases h2
        exact votes_fit (h.node a hc) (ok hc).1.inSync hn l hl sv h1 hne
    have hbf : BFits f (Certified lists correct (N.votes ++ (votesOf l).map fun sv => (a, sv.vote))) := by
      intro ty k r y hy hne
      obtain ⟨b, hc, hv⟩ := cert_voter few hy
      exact hfit b _ hc hv hne
    refine ⟨hg', ?_, hfit, ?_⟩
    · intro b hb
      by_cases hba : b = a
      · subst hba
        simp only [if_true]
        exact node_inv (h.inv b hb) ⟨(ok hb).1.inSync, (ok hb).1.rounds, (ok hb).1.start⟩ hn
      · simp only [if_neg hba]
        exact h.inv b hb
    · intro b hb
      by_cases hba : b = a
      · subst hba
        have hgn := hg'.gen b hb
        simp only [if_true] at hgn ⊢
        have o := ok hb
        refine ready_step hB hbf (h.node b hb) (h.gen.gen b hb) hgn ⟨o.2.fixes, o.1.saves, o.2.loads⟩ ?_ hn
        rintro r ⟨qc, hq⟩
        exact o.2.chokes n hn r (by rw [hq]; rfl)
      · simp only [if_neg hba]
        exact (h.node b hb).mono hB

theorem netReady_run {f : Hash → Nat × T} {lists : Nat → List Node} {correct : Address → Bool} {mode : LeaderMode}
    (hgl : GoodLists lists) (few : FewFaulty lists correct) :
    ∀ (as : List (Address × NAct T)) (N N' : NetSys T), NetReady f lists correct N →
      AlongNet (fun N a x => correct a = true → NetStep lists correct N a x ∧ OrderStep f mode N a x) N as → N.run as = some N' →
      NetReady f lists correct N' := by
  intro as
  induction as with
  | nil => intro N N' h _ hr; simp only [NetSys.run, Option.some.injEq] at hr; exact hr ▸ h
  | cons y as ih =>
    obtain ⟨a, x⟩ := y
    intro N N' h ok hr
    simp only [NetSys.run] at hr
    split at hr
    · cases hr
    · rename_i N1 h1
      exact ih N1 N' (netReady_step hgl few h ok.1 h1) (ok.2 N1 h1) hr

/-- The lock an order refers to is stored, with its block. -/
theorem NetReady.lock {f : Hash → Nat × T} {lists : Nat → List Node} {correct : Address → Bool} {N : NetSys T} (few : FewFaulty lists correct)
    (h : NetReady f lists correct N) {a : Address} (hc : correct a = true) (hd : (N.nodes a).down = false)
    (hp : (N.nodes a).st.consensusPower = true) {lr : Option Nat}
    (hr : LockRefs f (Certified lists correct N.votes) (N.nodes a).st (N.nodes a).st.height lr) : LockStored (N.nodes a).st lr := by
  cases lr with
  | none => trivial
  | some l =>
    obtain ⟨x, h1, h2, h3⟩ := hr l rfl
    obtain ⟨⟨qc, hq⟩, c, hk⟩ := h3 rfl
    have hst := ((h.gen.gen a hc).up hd).st.1
    have hq' := (getQcById_iff _ _ _ _ _).2 hq
    obtain ⟨e1, e2, e3, e4⟩ := (hst.store hp).votes.getQcById hq'
    have e4 : QcIn (Certified lists correct N.votes) qc := e4 e1
    unfold QcIn at e4
    rw [e1, e2, e3] at e4
    have := h.uniq few _ _ _ _ e4 h1
    exact ⟨qc, c, hq', by rw [this]; exact hk⟩

theorem fromStored_of {s : State T} {fr : FromWhere} (h : FromRef s fr) : FromStored s fr := by
  cases fr with
  | prevoteQC x => exact let ⟨qc, hq⟩ := h; ⟨qc, (getQcById_iff _ _ _ _ _).2 hq⟩
  | precommitQC x => exact h.imp id fun ⟨qc, hq⟩ => ⟨qc, (getQcById_iff _ _ _ _ _).2 hq⟩
  | chokeQC x => exact h

end Rdy
end Overlord
