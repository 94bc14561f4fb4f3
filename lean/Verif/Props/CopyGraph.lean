import Verif.Lemmas.NodesKept
import Verif.Props.Rebuild
import Verif.Props.IdToExpr
import Verif.Model.GraphOps
/-
C36: `copy_without_unions`.
-/
namespace Egg
variable {Op D : Type} [DecidableEq Op] [Lang Op]

/-- The id `i` stands for the expression with term `t` (`id_to_expr`). -/
def Stands (eg : EGraph Op D) (i : Id) (t : Term Op) : Prop := ∃ e, eg.idToExpr i = .ok e ∧ ExprTerm e t

/-- Different ids stand for different expressions. -/
def DistinctExprs (eg : EGraph Op D) : Prop := ∀ i j t, Stands eg i t → Stands eg j t → i = j

/-- An analysis whose `make` and `remake` always return and whose `modify` does nothing. -/
structure TotalQuiet (A : UserAnalysis Op D) : Prop where
  make : ∀ eg n i ds, EGraph.ChildData eg n ds → ∃ d, A.make eg n i = .ok d
  remake : ∀ eg n i ds, EGraph.ChildData eg n ds → ∃ d, A.remake eg n i = .ok d
  quiet : ∀ i, A.modify i = .done

theorem stands_iff {eg : EGraph Op D} (hd : Dag eg.nodes) {i : Id} {t : Term Op} : Stands eg i t ↔ TermOf eg.nodes i t := by
  constructor
  · rintro ⟨e, he, ht⟩
    by_cases hi : i < eg.nodes.length
    · obtain ⟨u, hu⟩ := hd.exists_term i hi
      obtain ⟨sa, h1, _, _, h2, _⟩ := idToExprTop_ok hd hi
      have e1 : sa.1 = e := by simpa [EGraph.idToExpr, h1] using he
      subst e1
      rw [ht.2.unique (h2 u hu).2]; exact hu
    · have hg : getIdx eg.nodes i = .error .panic := by unfold getIdx; rw [List.getElem?_eq_none (by omega)]
      simp [EGraph.idToExpr, idToExprGo, AMap.get?, hg] at he
  · intro ht
    obtain ⟨sa, h1, _, _, h2, _⟩ := idToExprTop_ok hd ht.lt
    exact ⟨sa.1, by simp [EGraph.idToExpr, h1], h2 t ht⟩

omit [DecidableEq Op] [Lang Op] in
theorem isCongruence_eq : IsCongruence (fun s t : Term Op => s = t) :=
  ⟨fun _ => rfl, fun h => h.symm, fun h h' => h.trans h', fun op {ss ts} h => by
    have : ss = ts := by
      have := @List.forall₂_eq_eq_eq (Term Op)
      rw [this] at h
      exact h
    rw [this]⟩

theorem TotalQuiet.quietMod {A : UserAnalysis Op D} (hA : TotalQuiet A) {depth : Nat} : EGraph.QuietMod (A.at (depth + 1)) := by
  intro eg i eg' h
  have h : (A.modify i).run (A.at depth) eg = .ok eg' := h
  rw [hA.quiet] at h
  cases h; rfl

theorem TotalQuiet.hookOK {A : UserAnalysis Op D} (hA : TotalQuiet A) {depth : Nat} {R : Term Op → Term Op → Prop}
    {hR : IsCongruence R} : EGraph.HookOK (Cfg.ofR R hR anyReason) (fun _ => False) (A.at (depth + 1)) := by
  refine ⟨?_, ?_, fun _ _ => trivial, fun _ _ => trivial, fun _ _ => trivial, fun _ _ => trivial,
    fun _ _ _ => trivial, fun _ _ _ => trivial, ?_⟩
  · intro eg n i ds hd
    obtain ⟨d, h⟩ := hA.make eg n i ds hd
    show Post _ (A.make eg n i) _
    rw [h]; exact ⟨trivial, fun _ _ => trivial, fun _ _ => trivial⟩
  · intro eg n i ds hd
    obtain ⟨d, h⟩ := hA.remake eg n i ds hd
    show Post _ (A.remake eg n i) _
    rw [h]; exact ⟨trivial, fun _ _ => trivial, fun _ _ => trivial⟩
  · intro eg i hg _
    show Post _ ((A.modify i).run (A.at depth) eg) _
    rw [hA.quiet]; exact ⟨hg, EGraph.Ext.refl _⟩

namespace EGraph

/-- The copy of a table whose entries stand for different terms. -/
theorem addNodes_post {N : Analysis Op D} (hN : HookOK (Cfg.ofR (fun s t : Term Op => s = t) isCongruence_eq anyReason) (fun _ => False) N)
    (hq : QuietMod N) (allow : Caller Op D) {nodes : List (ENode Op)} (hd : Dag nodes)
    (hu : ∀ i j t, TermOf nodes i t → TermOf nodes j t → i = j) :
    ∀ (rest pre : List (ENode Op)) (g : EGraph Op D), nodes = pre ++ rest → g.nodes = pre → g.explain = none →
      Good (Cfg.ofR (fun s t : Term Op => s = t) isCongruence_eq anyReason) g →
      Post (fun _ => False) (addNodes N g rest) (fun r => r.nodes = nodes ∧ r.explain = none ∧ Steps N allow g [] r ∧
        Good (Cfg.ofR (fun s t : Term Op => s = t) isCongruence_eq anyReason) r) := by
  intro rest
  induction rest with
  | nil => intro pre g h1 h2 h3 hg; exact ⟨by rw [h2, h1]; simp, h3, .refl, hg⟩
  | cons n rest ih =>
    intro pre g h1 h2 h3 hg
    unfold addNodes
    have hn : nodes[pre.length]? = some n := by rw [h1]; simp
    have hch : ∀ c ∈ n.children, c < g.nodes.length := fun c hc => by rw [h2]; exact hd _ n hn c hc
    have hp := addUncanonical_post hN hg hch
    have hadd : EGraph.add N g n = addUncanonical N g n >>= fun r => r.1.find r.2 >>= fun i => .ok (r.1, i) := rfl
    rw [hadd]
    cases ha : addUncanonical N g n with
    | error e => rw [ha] at hp; exact False.elim hp
    | ok r =>
      obtain ⟨g', i⟩ := r
      rw [ha] at hp
      obtain ⟨k1, k2, ni, k3, k4, _⟩ := hp
      have k3 : g'.nodes[i]? = some ni := k3
      simp only [ok_bind]
      rw [k1.inv.find (getElem?_lt k3)]
      simp only [ok_bind]
      -- the node is new
      have hnew : g'.nodes = g.nodes ++ [n] := by
        rcases addUncanonical_cases N hg.inv hch with ⟨e, j, nj, q1, q2, q3, q4, _⟩ | ⟨e, x, eg1, q1, q2, _⟩ | ⟨q1, eg1, q2, q3⟩
        · exfalso
          rw [ha] at q2; cases q2
          obtain ⟨t, ht⟩ := hd.exists_term pre.length (getElem?_lt hn)
          have hj : i < pre.length := by rw [← h2]; exact getElem?_lt q3
          obtain ⟨s, hs⟩ := hd.exists_term i (by have := getElem?_lt hn; omega)
          have : s = t := by
            have hs' : TermOf g.nodes i s := by
              rw [h2]; rw [h1] at hs; exact TermOf.of_append (by rw [← h2]; exact hg.inv.core.dag) hs hj
            cases s with
            | node op ss =>
              cases t with
              | node op' ts =>
                obtain ⟨m, f1, f2, f3⟩ := termOf_iff.1 hs'
                rw [q3] at f1; cases f1
                obtain ⟨m', f1', f2', f3'⟩ := termOf_iff.1 ht
                rw [hn] at f1'; cases f1'
                have hcc : List.Forall₂ (fun a b => g.rt a = g.rt b) nj.children n.children := forall₂_map_eq.2 q4.2
                have h5 : List.Forall₂ (fun s b => ∃ a, g.rt a = g.rt b ∧ TermOf g.nodes a s) ss n.children :=
                  forall₂_comp (forall₂_flip f3) hcc (fun s a b _ _ _ e1 e2 => ⟨a, e2, e1⟩)
                have h6 : List.Forall₂ (fun s t : Term Op => s = t) ss ts := by
                  refine forall₂_comp h5 f3' ?_
                  rintro s b t _ hb _ ⟨a, e1, e2⟩ e3
                  rw [h1] at e3
                  have hb := hch b hb
                  have e4 : TermOf g.nodes b t := by
                    rw [h2] at hb ⊢
                    exact TermOf.of_append (by rw [← h2]; exact hg.inv.core.dag) e3 hb
                  exact hg.inv.sound a b s t e1 e2 e4
                rw [show op = op' from f2.symm.trans (q4.1.trans f2')]
                exact isCongruence_eq.congr op' h6
          subst this
          have := hu _ _ _ hs ht
          omega
        · rw [h3] at q2; cases q2
        · rw [ha] at q3
          have q3 := q3.symm
          rw [bind_eq_ok] at q3
          obtain ⟨d, _, q3⟩ := q3
          rw [bind_eq_ok] at q3
          obtain ⟨eg2, hm, q3⟩ := q3
          have := hq _ _ _ hm
          subst this
          cases q3
          exact (q2 d).2.nodes
      have hex : g'.explain = none := by
        have := k2.expl
        rw [h3] at this
        simpa using this
      refine Post.mono (ih (pre ++ [n]) g' (by rw [h1]; simp) (by rw [hnew, h2]) hex k1) ?_
      rintro r ⟨r1, r2, r3, r4⟩
      exact ⟨r1, r2, by simpa using Steps.trans (Steps.tail (V := []) .refl (.add ha)) r3, r4⟩

end EGraph

/-- **C36.**  If different ids stand for different expressions, then `copy_without_unions`
returns an e-graph with the same ids, where every id stands for the same expression, its class
represents that expression and nothing else, and no two ids are in the same class.  (`A` is the
analysis of the e-graph, `A2` the one given to the copy.) -/
theorem c36_copy {A A2 : UserAnalysis Op D} (hA2 : TotalQuiet A2) {depth depth2 : Nat}
    {allow allow2 : Caller Op D} {U : List (UnionRec Op)} {eg : EGraph Op D}
    (h : Hist (A.at depth) allow U eg) (hx : eg.explain.isSome = true) (hdis : DistinctExprs eg) :
    ∃ copy, eg.copyWithoutUnions (A2.at (depth2 + 1)) = .ok copy ∧ Hist (A2.at (depth2 + 1)) allow2 [] copy ∧
      (∀ i, Valid copy i ↔ Valid eg i) ∧
      (∀ i t, Stands eg i t → Stands copy i t ∧ ∀ s, Rep copy i s ↔ s = t) ∧
      (∀ i j, SameClass copy i j → i = j) := by
  have hg := hist_good h
  obtain ⟨x, hx⟩ := Option.isSome_iff_exists.1 hx
  have hd := hg.inv.core.dag
  have hu : ∀ i j t, TermOf eg.nodes i t → TermOf eg.nodes j t → i = j :=
    fun i j t h1 h2 => hdis i j t ((stands_iff hd).2 h1) ((stands_iff hd).2 h2)
  have hp := EGraph.addNodes_post (hA2.hookOK (depth := depth2)) hA2.quietMod allow2 hd hu eg.nodes [] EGraph.new rfl rfl rfl
    (EGraph.good_new _)
  cases hc : EGraph.addNodes (A2.at (depth2 + 1)) EGraph.new eg.nodes with
  | error e => rw [hc] at hp; exact False.elim hp
  | ok copy =>
    rw [hc] at hp
    obtain ⟨h1, h2, h3, h4⟩ := hp
    refine ⟨copy, by unfold EGraph.copyWithoutUnions; rw [hx]; exact hc, h3, ?_, ?_, ?_⟩
    · intro i
      rw [h4.valid_iff, hg.valid_iff, h1]
    · intro i t ht
      rw [stands_iff hd] at ht
      have ht' : TermOf copy.nodes i t := by rw [h1]; exact ht
      refine ⟨(stands_iff h4.inv.core.dag).2 ht', fun s => ⟨fun hs => ?_, ?_⟩⟩
      · exact h4.inv.rep_related hs (h4.inv.rep_of_termOf t ht') rfl
      · rintro rfl; exact h4.inv.rep_of_termOf s ht'
    · intro i j hij
      obtain ⟨k1, k2, k3⟩ := h4.inv.sameClass_iff.1 hij
      obtain ⟨s, hs⟩ := h4.inv.core.dag.exists_term i k1
      obtain ⟨t, ht⟩ := h4.inv.core.dag.exists_term j k2
      have : s = t := h4.inv.sound i j s t k3 hs ht
      subst this
      rw [h1] at hs ht
      exact hu i j s hs ht

/-- Without explanations `copy_without_unions` panics. -/
theorem c36_copy_panic {N : Analysis Op D} {eg : EGraph Op D} (hx : eg.explain = none) :
    eg.copyWithoutUnions N = .error .panic := by
  unfold EGraph.copyWithoutUnions; rw [hx]

/-- In whatever `copy_without_unions` returns, different terms are in different classes. -/
theorem c36_copy_no_unions {A2 : UserAnalysis Op D} (hA2 : ∀ i, A2.modify i = .done) {depth2 : Nat}
    {eg copy : EGraph Op D} (hc : eg.copyWithoutUnions (A2.at depth2) = .ok copy)
    {a b : Id} {s t : Term Op} (hab : SameClass copy a b) (ha : Rep copy a s) (hb : Rep copy b t) : s = t := by
  have key : ∀ (l : List (ENode Op)) (g : EGraph Op D) {r}, EGraph.addNodes (A2.at depth2) g l = .ok r →
      Steps (A2.at depth2) .noSet g [] r := by
    intro l
    induction l with
    | nil => intro g r h; cases h; exact .refl
    | cons n l ih =>
      intro g r h
      unfold EGraph.addNodes at h
      rw [bind_eq_ok] at h
      obtain ⟨⟨g1, i⟩, h1, h⟩ := h
      unfold EGraph.add at h1
      rw [bind_eq_ok] at h1
      obtain ⟨⟨g2, j⟩, h2, h1⟩ := h1
      rw [bind_eq_ok] at h1
      obtain ⟨_, _, h1⟩ := h1
      cases h1
      simpa using Steps.trans (Steps.tail (V := []) .refl (.add h2)) (ih _ h)
  have hh : Hist (A2.at depth2) .noSet [] copy := by
    unfold EGraph.copyWithoutUnions at hc
    split at hc
    · cases hc
    · exact key _ _ hc
  exact c02_no_spurious_equality isCongruence_eq (soundFor_of_quiet hA2 _ _) hh
    (by rintro s t ⟨u, hu, _⟩; cases hu) hab ha hb

/-! ### When do different ids stand for different expressions? -/

/-- Histories that add e-nodes only when no union was made since the last `rebuild`; the flag says
whether adding is allowed now. -/
inductive CarefulHist (N : Analysis Op D) (allow : Caller Op D) : EGraph Op D → Bool → Prop where
  | new : CarefulHist N allow EGraph.new true
  | add {eg eg' n i} : CarefulHist N allow eg true → EGraph.addUncanonical N eg n = .ok (eg', i) → CarefulHist N allow eg' true
  | explain {eg eg' b} : CarefulHist N allow eg b → eg.withExplanationsEnabled = .ok eg' → CarefulHist N allow eg' b
  | noOptimize {eg eg' b} : CarefulHist N allow eg b → eg.withoutExplanationLengthOptimization = .ok eg' → CarefulHist N allow eg' b
  | union {eg eg' b c d caller r} : CarefulHist N allow eg b → EGraph.union N eg c d caller = .ok (eg', r) → CarefulHist N allow eg' false
  | unionTrusted {eg eg' b c d reason r} : CarefulHist N allow eg b → EGraph.unionTrusted N eg c d reason = .ok (eg', r) →
      CarefulHist N allow eg' false
  | setData {eg eg' i d b} : CarefulHist N allow eg b → allow eg i d → EGraph.setAnalysisData N eg i d = .ok eg' →
      CarefulHist N allow eg' false
  | rebuild {eg eg' fuel n b} : CarefulHist N allow eg b → EGraph.rebuild N fuel eg = .ok (eg', n) → CarefulHist N allow eg' true


omit [DecidableEq Op] [Lang Op] in
theorem termOf_inj_of_nodup {nodes : List (ENode Op)} (hn : nodes.Nodup) : ∀ (t : Term Op) {i j : Id},
    TermOf nodes i t → TermOf nodes j t → i = j := by
  intro t
  induction t using Term.ind with
  | h op ts ih =>
    intro i j h1 h2
    obtain ⟨n, a1, a2, a3⟩ := termOf_iff.1 h1
    obtain ⟨m, b1, b2, b3⟩ := termOf_iff.1 h2
    have hc : n.children = m.children := by
      have := forall₂_comp a3 (forall₂_flip b3) (T := fun a b => a = b) (fun a t b _ ht _ e1 e2 => ih t ht e1 e2)
      rw [@List.forall₂_eq_eq_eq Nat] at this
      exact this
    have : n = m := by cases n; cases m; simp_all
    subst this
    have hi := getElem?_lt a1
    exact (List.getElem?_inj hi hn).1 (a1.trans b1.symm)

theorem careful_hist {A : UserAnalysis Op D} (hA : ∀ i, A.modify i = .done) {depth : Nat}
    {allow : Caller Op D} {eg : EGraph Op D} {b : Bool}
    (h : CarefulHist (A.at (depth + 1)) allow eg b) :
    (∃ U, Hist (A.at (depth + 1)) allow U eg) ∧ eg.nodes.Nodup ∧ (b = true → EGraph.Closed eg) := by
  have hq : EGraph.QuietMod (A.at (depth + 1)) := by
    intro eg i eg' h
    have h : (A.modify i).run (A.at depth) eg = .ok eg' := h
    rw [hA] at h
    cases h; rfl
  have valid : ∀ {U : List (UnionRec Op)} {eg : EGraph Op D} {c d : Id} {caller : Symbol} {r},
      Hist (A.at (depth + 1)) allow U eg → (EGraph.union (A.at (depth + 1)) eg c d caller = .ok r ∨
        EGraph.unionTrusted (A.at (depth + 1)) eg c d caller = .ok r) → ∃ s t, Rep eg c s ∧ Rep eg d t := by
    intro U eg c d caller r h hu
    have hg := hist_good h
    by_cases hv : Valid eg c ∧ Valid eg d
    · obtain ⟨s, hs⟩ := hg.inv.exists_rep (hg.valid_iff.1 hv.1)
      obtain ⟨t, ht⟩ := hg.inv.exists_rep (hg.valid_iff.1 hv.2)
      exact ⟨s, t, hs, ht⟩
    · obtain ⟨h1, h2⟩ := EGraph.union_error (N := A.at (depth + 1)) (caller := caller) hg hv
      rw [h1, h2] at hu
      rcases hu with hu | hu <;> cases hu
  induction h with
  | new => exact ⟨⟨[], .refl⟩, List.nodup_nil, fun _ i n h => by simp [EGraph.new] at h⟩
  | @add eg eg' n i _ ha ih =>
    obtain ⟨⟨U, hU⟩, hn, hcl⟩ := ih
    have hcl := hcl rfl
    have hg := hist_good hU
    have hch : ∀ c ∈ n.children, c < eg.nodes.length := by
      by_cases hv : ∀ c ∈ n.children, Valid eg c
      · exact fun c hc => hg.valid_iff.1 (hv c hc)
      · rw [EGraph.addUncanonical_error hg hv] at ha; cases ha
    refine ⟨⟨U, Steps.tail (V := []) hU (.add ha)⟩, ?_, fun _ => (EGraph.addUncanonical_quiet hq hg.inv hch ha).2 hcl⟩
    have happ : n ∉ eg.nodes → (eg.nodes ++ [n]).Nodup := by
      intro hni
      rw [List.nodup_append]
      refine ⟨hn, by simp, ?_⟩
      intro a hmem b hb
      simp only [List.mem_singleton] at hb
      subst hb
      rintro rfl
      exact hni hmem
    rcases EGraph.addUncanonical_cases (A.at (depth + 1)) hg.inv hch with
      ⟨e, j, nj, _, g2, _⟩ | ⟨e, x, eg1, g1, gx, gu, g4, g5, g6⟩ | ⟨g1, eg1, g2, g3⟩
    · rw [ha] at g2; cases g2; exact hn
    · rw [ha] at g4; cases g4
      rw [g6.nodes]
      refine happ fun hm => ?_
      obtain ⟨k, hk⟩ := List.getElem?_of_mem hm
      obtain ⟨L, hL⟩ := hg.inv.expl x gx
      obtain ⟨j, hj⟩ := hL.inv.unComplete k n hk
      rw [gu] at hj; cases hj
    · rw [ha] at g3
      have g3 := g3.symm
      rw [bind_eq_ok] at g3
      obtain ⟨d, _, g3⟩ := g3
      rw [bind_eq_ok] at g3
      obtain ⟨eg2, hm, g3⟩ := g3
      have := hq _ _ _ hm
      subst this
      cases g3
      show (eg1 d).nodes.Nodup
      rw [(g2 d).2.nodes]
      refine happ fun hm => ?_
      obtain ⟨k, hk⟩ := List.getElem?_of_mem hm
      obtain ⟨q, hq, _⟩ := hcl k n hk
      rw [g1] at hq; cases hq
  | @explain eg eg' b _ he ih =>
    obtain ⟨⟨U, hU⟩, hn, hcl⟩ := ih
    refine ⟨⟨U, Steps.tail (V := []) hU (.explain he)⟩, by rw [EGraph.explain_nodes.1 he]; exact hn, ?_⟩
    unfold EGraph.withExplanationsEnabled at he
    split at he
    · cases he; exact hcl
    · split at he
      · cases he
      · cases he; exact hcl
  | @noOptimize eg eg' b _ he ih =>
    obtain ⟨⟨U, hU⟩, hn, hcl⟩ := ih
    refine ⟨⟨U, Steps.tail (V := []) hU (.noOptimize he)⟩, by rw [EGraph.explain_nodes.2 he]; exact hn, ?_⟩
    unfold EGraph.withoutExplanationLengthOptimization at he
    split at he
    · cases he; exact hcl
    · cases he
  | @union eg eg' b c d caller r _ hu ih =>
    obtain ⟨⟨U, hU⟩, hn, hcl⟩ := ih
    obtain ⟨s, t, hs, ht⟩ := valid hU (.inl hu)
    exact ⟨⟨_, Steps.tail hU (.union hs ht hu)⟩, by rw [(EGraph.union_nodes hq).1 hu]; exact hn, by simp⟩
  | @unionTrusted eg eg' b c d caller r _ hu ih =>
    obtain ⟨⟨U, hU⟩, hn, hcl⟩ := ih
    obtain ⟨s, t, hs, ht⟩ := valid hU (.inr hu)
    exact ⟨⟨_, Steps.tail hU (.unionTrusted hs ht hu)⟩, by rw [(EGraph.union_nodes hq).2 hu]; exact hn, by simp⟩
  | @setData eg eg' i d b _ hal hs ih =>
    obtain ⟨⟨U, hU⟩, hn, hcl⟩ := ih
    exact ⟨⟨U, Steps.tail (V := []) hU (.setData hal hs)⟩, by rw [EGraph.setData_nodes hq hs]; exact hn, by simp⟩
  | @rebuild eg eg' fuel k b _ hr ih =>
    obtain ⟨⟨U, hU⟩, hn, hcl⟩ := ih
    have hh : Hist (A.at (depth + 1)) allow U eg' := Steps.tail (V := []) hU (.rebuild hr)
    have hp := ((EGraph.rebuild_post trivial ((soundFor_true A).hookOK trivial (depth + 1)) fuel (hist_good hU)).elim hr).2.2.1.pending
    exact ⟨⟨U, hh⟩, by rw [EGraph.rebuild_nodes hq hr]; exact hn, fun _ => EGraph.closed_of_pending (hist_good hh).inv hp⟩

/-- **C36**, the condition is met by careful histories: if e-nodes are only added when no union was
made since the last `rebuild`, then different ids stand for different expressions. -/
theorem c36_careful {A : UserAnalysis Op D} (hA : ∀ i, A.modify i = .done) {depth : Nat}
    {allow : Caller Op D} {eg : EGraph Op D} {b : Bool}
    (h : CarefulHist (A.at (depth + 1)) allow eg b) : (∃ U, Hist (A.at (depth + 1)) allow U eg) ∧ DistinctExprs eg := by
  obtain ⟨⟨U, hU⟩, hn, _⟩ := careful_hist hA h
  have hd := (hist_good hU).inv.core.dag
  refine ⟨⟨U, hU⟩, fun i j t h1 h2 => ?_⟩
  exact termOf_inj_of_nodup hn t ((stands_iff hd).1 h1) ((stands_iff hd).1 h2)

namespace Ex

theorem carefulx4 : CarefulHist (U0.at 1) .noSet x4 true :=
  .add (n := app .f [1]) (i := 3) (.add (n := app .f [0]) (i := 2) (.add (n := leaf .b) (i := 1)
    (.add (n := leaf .a) (i := 0) (.explain .new rfl) rfl) rfl) rfl) rfl

theorem carefulx6 : CarefulHist (U0.at 1) .noSet x6 true :=
  .rebuild (fuel := 20) (n := 1) (.union (c := 0) (d := 1) (caller := 7) (r := true) carefulx4 rfl) rfl

/-- Hypotheses of C36 are met: `a = b` and `f a = f b` in the original, which has four ids. -/
example : TotalQuiet U0 ∧ CarefulHist (U0.at 1) .noSet x6 true ∧
    Hist (U0.at 1) .noSet [un] x6 ∧ x6.explain.isSome = true ∧ DistinctExprs x6 ∧ SameClass x6 2 3 :=
  ⟨⟨fun _ _ _ _ _ => ⟨_, rfl⟩, fun _ _ _ _ _ => ⟨_, rfl⟩, fun _ => rfl⟩, carefulx6, histx6 _, rfl,
    (c36_careful (fun _ => rfl) carefulx6).2, ⟨_, rfl, rfl⟩⟩

/-! The condition is needed.  `f a` is added a second time between a union and `rebuild`. -/

def y1 : G := st (EGraph.addUncanonical N0 x2 (app .f [0]))
def y2 : G := st (EGraph.addUncanonical N0 y1 (app .g [1]))
def y3 : G := st (EGraph.addUncanonical N0 y2 (app .g [1, 1]))
def y4 : G := st (EGraph.union N0 y3 0 1 7)
def y5 : G := st (EGraph.addUncanonical N0 y4 (app .f [0]))
def y6 : G := st (EGraph.addUncanonical N0 y5 (leaf .c))
def y7 : G := st (EGraph.addUncanonical N0 y6 (app .g [5]))
def y8 : G := st (EGraph.rebuild N0 40 y7)
def yc : G := match y8.copyWithoutUnions N0 with | .ok g => g | .error _ => EGraph.new
def z6 : G := st (EGraph.addUncanonical N0 y5 (app .g [5]))
def z7 : G := st (EGraph.rebuild N0 40 z6)

theorem rep_y3_a : Rep y3 0 ta := rep_leaf rfl rfl (by decide)
theorem rep_y3_b : Rep y3 1 tb := rep_leaf rfl rfl (by decide)

theorem histy5 : Hist N0 .noSet [un] y5 := by
  have h2 : Hist N0 .noSet [] x2 := .tail (V := []) (.tail (V := []) (histx0 _)
    (.add (n := leaf .a) (i := 0) rfl)) (.add (n := leaf .b) (i := 1) rfl)
  have h3 : Hist N0 .noSet [] y3 := .tail (V := []) (.tail (V := []) (.tail (V := []) h2
    (.add (n := app .f [0]) (i := 2) rfl)) (.add (n := app .g [1]) (i := 3) rfl)) (.add (n := app .g [1, 1]) (i := 4) rfl)
  exact .tail (V := []) (.tail (V := [un]) h3 (.union (r := true) rep_y3_a rep_y3_b rfl)) (.add (n := app .f [0]) (i := 5) rfl)

theorem histy8 : Hist N0 .noSet [un] y8 :=
  .tail (V := []) (.tail (V := []) (.tail (V := []) histy5 (.add (n := leaf .c) (i := 6) rfl))
    (.add (n := app .g [5]) (i := 7) rfl)) (.rebuild (fuel := 40) (n := 1) rfl)

theorem histz7 : Hist N0 .noSet [un] z7 :=
  .tail (V := []) (.tail (V := []) histy5 (.add (n := app .g [5]) (i := 6) rfl)) (.rebuild (fuel := 40) (n := 1) rfl)

/-- C36 fails when an e-node is added again between a union and `rebuild`: in the e-graph `y8` the
id 7 stands for `g (f a)`; in its copy nothing does, there is no id 7, and there is a `g c`, which
is not in the original. -/
theorem _root_.Egg.c36_copy_counterexample : Hist N0 .noSet [un] y8 ∧ y8.explain.isSome = true ∧
    y8.idToExpr 7 = .ok [leaf .a, app .f [0], app .g [1]] ∧ y8.copyWithoutUnions N0 = .ok yc ∧
    yc.lookupExpr [leaf .a, app .f [0], app .g [1]] = .ok none ∧ yc.find 7 = .error .panic ∧
    yc.idToExpr 6 = .ok [leaf .c, app .g [0]] ∧ y8.lookupExpr [leaf .c, app .g [0]] = .ok none :=
  ⟨histy8, rfl, rfl, rfl, rfl, rfl, rfl, rfl⟩

/-- C36 fails in another way: `copy_without_unions` panics. -/
theorem _root_.Egg.c36_copy_panic_counterexample : Hist N0 .noSet [un] z7 ∧ z7.explain.isSome = true ∧
    z7.copyWithoutUnions N0 = .error .panic := ⟨histz7, rfl, rfl⟩

end Ex
end Egg
