import Verif.Model.Dot
import Verif.Props.VarText
import Verif.Lemmas.Inv
/-
Lemmas about the Graphviz output.
-/
namespace Egg
variable {Op D : Type} [DecidableEq Op] [Lang Op]

/-! ### Lists -/

theorem filterMap_flatMap_one {α β γ : Type} (f : α → List β) (g : β → Option γ) (x : α) : ∀ (l : List α), l.Nodup → x ∈ l →
    (∀ y ∈ l, y ≠ x → (f y).filterMap g = []) → (l.flatMap f).filterMap g = (f x).filterMap g := by
  intro l
  induction l with
  | nil => intro _ h; cases h
  | cons a l ih =>
    intro hn hx h
    rw [List.flatMap_cons, List.filterMap_append]
    obtain ⟨h1, h2⟩ := List.nodup_cons.1 hn
    by_cases e : a = x
    · subst e
      have : (l.flatMap f).filterMap g = [] := by
        rw [List.filterMap_flatMap]
        rw [List.flatMap_eq_nil_iff]
        intro y hy
        exact h y (List.mem_cons_of_mem _ hy) (fun e => h1 (e ▸ hy))
      rw [this, List.append_nil]
    · rw [h a (List.mem_cons_self ..) e, List.nil_append]
      refine ih h2 ?_ (fun y hy => h y (List.mem_cons_of_mem _ hy))
      rcases List.mem_cons.1 hx with rfl | hx
      · exact absurd rfl e
      · exact hx

theorem zipIdx_nodup {α : Type} (l : List α) (k : Nat) : (l.zipIdx k).Nodup := by
  have : ((l.zipIdx k).map Prod.snd).Nodup := by
    rw [List.zipIdx_map_snd]; exact List.nodup_range'
  exact List.Nodup.of_map _ this

/-! ### The edges -/

/-- The result of `Dot::edge`. -/
def DotCfg.mark (d : DotCfg) (a len : Nat) : Anchor × Option Nat :=
  match d.edge a len with
  | .ok m => m
  | .error _ => (.none, none)

theorem DotCfg.edge_ok {d : DotCfg} {a len : Nat} (h : a < len) : d.edge a len = .ok (d.mark a len) := by
  have : ∃ m, d.edge a len = .ok m := by
    unfold DotCfg.edge
    rw [if_pos h]
    split
    · exact ⟨_, rfl⟩
    · split <;> exact ⟨_, rfl⟩
  obtain ⟨m, e⟩ := this
  unfold DotCfg.mark
  rw [e]

/-- The line for one argument. -/
def dotArg (d : DotCfg) (rt : Id → Id) (c : Id) (i len : Nat) (ch : Id) (a : Nat) : DotLine :=
  if rt ch = c then .loop c i (d.mark a len).1 (d.mark a len).2 else .edge c i (d.mark a len).1 ch (rt ch) (d.mark a len).2

variable {d : DotCfg} {eg : EGraph Op D} {rt : Id → Id}

theorem dotArgs_ok {c : Id} {i len : Nat} : ∀ {chs : List Id} {a : Nat}, (∀ ch ∈ chs, eg.find ch = .ok (rt ch)) → a + chs.length = len →
    dotArgs d eg c i len a chs = .ok ((chs.zipIdx a).map (fun p => dotArg d rt c i len p.1 p.2)) := by
  intro chs
  induction chs with
  | nil => intro a _ _; rfl
  | cons ch chs ih =>
    intro a h hl
    rw [List.length_cons] at hl
    unfold dotArgs
    rw [DotCfg.edge_ok (by omega), ok_bind]
    dsimp only
    rw [h ch (List.mem_cons_self ..), ok_bind, ih (fun x hx => h x (List.mem_cons_of_mem _ hx)) (by omega), ok_bind]
    rfl

theorem dotEdges_ok {c : Id} : ∀ {ns : List (ENode Op)} {i : Nat}, (∀ n ∈ ns, ∀ ch ∈ n.children, eg.find ch = .ok (rt ch)) →
    dotEdges d eg c i ns = .ok ((ns.zipIdx i).flatMap (fun p => p.1.children.zipIdx.map (fun q => dotArg d rt c p.2 p.1.children.length q.1 q.2))) := by
  intro ns
  induction ns with
  | nil => intro i _; rfl
  | cons n ns ih =>
    intro i h
    unfold dotEdges
    rw [dotArgs_ok (h n (List.mem_cons_self ..)) (by omega), ok_bind, ih (fun x hx => h x (List.mem_cons_of_mem _ hx)), ok_bind]
    rfl

/-- The lines for the arguments of the e-nodes of one class. -/
def dotClassEdges (d : DotCfg) (rt : Id → Id) (k : EClass Op D) : List DotLine :=
  k.nodes.zipIdx.flatMap (fun p => p.1.children.zipIdx.map (fun q => dotArg d rt k.id p.2 p.1.children.length q.1 q.2))

theorem dotAllEdges_ok : ∀ {ks : List (EClass Op D)}, (∀ k ∈ ks, ∀ n ∈ k.nodes, ∀ ch ∈ n.children, eg.find ch = .ok (rt ch)) →
    dotAllEdges d eg ks = .ok (ks.flatMap (dotClassEdges d rt)) := by
  intro ks
  induction ks with
  | nil => intro _; rfl
  | cons k ks ih =>
    intro h
    unfold dotAllEdges
    rw [dotEdges_ok (h k (List.mem_cons_self ..)), ok_bind, ih (fun x hx => h x (List.mem_cons_of_mem _ hx)), ok_bind]
    rfl

theorem dotLines_ok {T : OpText Op} {ks : List (EClass Op D)} (h : ∀ k ∈ ks, ∀ n ∈ k.nodes, ∀ ch ∈ n.children, eg.find ch = .ok (rt ch)) :
    dotLines T d eg ks = .ok (ks.flatMap (dotCluster T) ++ ks.flatMap (dotClassEdges d rt)) := by
  unfold dotLines
  rw [dotAllEdges_ok h]
  rfl

/-! ### Text -/

theorem notDigit_of {c : Char} (h : ¬ (48 ≤ c.toNat ∧ c.toNat ≤ 57)) : ¬ IsDigit c := by
  rw [isDigit_iff]; omega

/-- A number is read back from what follows it. -/
theorem digits_sep : ∀ {x y : List Char} {a b : Char} {u v : List Char}, (∀ c ∈ x, IsDigit c) → (∀ c ∈ y, IsDigit c) → ¬ IsDigit a → ¬ IsDigit b →
    x ++ a :: u = y ++ b :: v → x = y ∧ a :: u = b :: v := by
  intro x
  induction x with
  | nil =>
    intro y a b u v _ hy ha _ e
    cases y with
    | nil => exact ⟨rfl, e⟩
    | cons c y => simp at e; exact absurd (hy c (List.mem_cons_self ..)) (e.1 ▸ ha)
  | cons p x ih =>
    intro y a b u v hx hy ha hb e
    cases y with
    | nil => simp at e; exact absurd (hx p (List.mem_cons_self ..)) (e.1 ▸ hb)
    | cons c y =>
      simp only [List.cons_append, List.cons.injEq] at e
      obtain ⟨h1, h2⟩ := ih (fun z hz => hx z (List.mem_cons_of_mem _ hz)) (fun z hz => hy z (List.mem_cons_of_mem _ hz)) ha hb e.2
      exact ⟨by rw [e.1, h1], h2⟩

theorem nat_sep {m n : Nat} {a b : Char} {u v : List Char} (ha : ¬ IsDigit a) (hb : ¬ IsDigit b)
    (e : showNat m ++ a :: u = showNat n ++ b :: v) : m = n ∧ a :: u = b :: v := by
  obtain ⟨h1, h2⟩ := digits_sep (showNat_spec m).2.1 (showNat_spec n).2.1 ha hb e
  exact ⟨showNat_injective h1, h2⟩

theorem dotLabel_inj {l l' : Option Nat} (e : dotLabel l ++ [']'] = dotLabel l' ++ [']']) : l = l' := by
  have e := List.append_cancel_right e
  cases l with
  | none => cases l' with
    | none => rfl
    | some j => simp [dotLabel] at e
  | some i => cases l' with
    | none => simp [dotLabel] at e
    | some j => rw [showNat_injective (List.append_cancel_left e)]

theorem anchor_head (a : Anchor) (u : List Char) : ∃ h t, a.text ++ ' ' :: u = h :: t ∧ ¬ IsDigit h := by
  cases a
  · exact ⟨' ', u, rfl, notDigit_of (by decide)⟩
  all_goals exact ⟨':', _, rfl, notDigit_of (by decide)⟩

theorem anchor_sep {a a' : Anchor} {u v : List Char} (e : a.text ++ ' ' :: u = a'.text ++ ' ' :: v) : a = a' ∧ u = v := by
  cases a <;> cases a' <;> simp [Anchor.text] at e ⊢ <;> exact e

/-- The first part of an edge: `c.i` with the anchor, and the arrow. -/
theorem source_sep {c c' i i' : Nat} {a a' : Anchor} {u v : List Char}
    (e : showNat c ++ ('.' :: (showNat i ++ (a.text ++ ' ' :: u))) = showNat c' ++ ('.' :: (showNat i' ++ (a'.text ++ ' ' :: v)))) :
    c = c' ∧ i = i' ∧ a = a' ∧ u = v := by
  obtain ⟨hc, e1⟩ := nat_sep (notDigit_of (by decide)) (notDigit_of (by decide)) e
  have e2 := (List.cons.inj e1).2
  obtain ⟨h, t, h1, h2⟩ := anchor_head a u
  obtain ⟨h', t', h1', h2'⟩ := anchor_head a' v
  rw [h1, h1'] at e2
  obtain ⟨hi, e3⟩ := nat_sep h2 h2' e2
  rw [← h1, ← h1'] at e3
  obtain ⟨ha, e4⟩ := anchor_sep e3
  exact ⟨hc, hi, ha, e4⟩

/-- The last part of an edge. -/
theorem head_sep {c c' : Nat} {l l' : Option Nat}
    (e : showNat c ++ (',' :: ' ' :: (dotLabel l ++ [']'])) = showNat c' ++ (',' :: ' ' :: (dotLabel l' ++ [']']))) : c = c' ∧ l = l' := by
  obtain ⟨hc, e2⟩ := nat_sep (notDigit_of (by decide)) (notDigit_of (by decide)) e
  exact ⟨hc, dotLabel_inj (List.cons.inj (List.cons.inj e2).2).2⟩

theorem showNat_cons (n : Nat) : ∃ h t, showNat n = h :: t ∧ IsDigit h := by
  obtain ⟨h1, h2, _⟩ := showNat_spec n
  cases e : showNat n with
  | nil => exact absurd e h1
  | cons h t => exact ⟨h, t, rfl, h2 h (by rw [e]; exact List.mem_cons_self ..)⟩

theorem showNat_zero : showNat 0 = ['0'] := by decide +kernel

theorem clusterText_eq (c) : (DotLine.cluster c).text = ' ' :: ' ' :: 's' :: 'u' :: 'b' :: 'g' :: 'r' :: 'a' :: 'p' :: 'h' :: ' ' :: 'c' :: 'l' :: 'u' :: 's' :: 't' :: 'e' :: 'r' :: '_' :: (showNat c ++ [' ', '{']) := by
  show clusterText c = _
  unfold clusterText
  simp only [String.reduceToList, List.cons_append, List.nil_append]

theorem styleText_eq : DotLine.style.text = ' ' :: ' ' :: ' ' :: ' ' :: 's' :: 't' :: 'y' :: 'l' :: 'e' :: '=' :: 'd' :: 'o' :: 't' :: 't' :: 'e' :: 'd' :: [] := by
  show styleText = _
  unfold styleText
  simp only [String.reduceToList]

theorem closeText_eq : DotLine.close.text = ' ' :: ' ' :: '}' :: [] := by
  show closeText = _
  unfold closeText
  simp only [String.reduceToList]

theorem nodeText_eq (c i l) : (DotLine.node c i l).text = ' ' :: ' ' :: ' ' :: ' ' :: (showNat c ++ ('.' :: (showNat i ++ ('[' :: 'l' :: 'a' :: 'b' :: 'e' :: 'l' :: ' ' :: '=' :: ' ' :: '"' :: (l ++ ['"', ']']))))) := by
  show nodeText c i l = _
  unfold nodeText
  simp only [String.reduceToList, List.cons_append, List.nil_append]

theorem loopText_eq (c i a l) : (DotLine.loop c i a l).text = ' ' :: ' ' :: (showNat c ++ ('.' :: (showNat i ++ (a.text ++ (' ' :: '-' :: '>' :: ' ' ::
    (showNat c ++ ('.' :: (showNat i ++ (':' :: 'n' :: ' ' :: '[' :: 'l' :: 'h' :: 'e' :: 'a' :: 'd' :: ' ' :: '=' :: ' ' :: 'c' :: 'l' :: 'u' :: 's' :: 't' :: 'e' :: 'r' :: '_' :: (showNat c ++ (',' :: ' ' :: (dotLabel l ++ [']'])))))))))))) := by
  show loopText c i a l = _
  unfold loopText
  simp only [String.reduceToList, List.cons_append, List.nil_append]

theorem edgeText_eq (c i a ch ld l) : (DotLine.edge c i a ch ld l).text = ' ' :: ' ' :: (showNat c ++ ('.' :: (showNat i ++ (a.text ++ (' ' :: '-' :: '>' :: ' ' ::
    (showNat ch ++ ('.' :: '0' :: ' ' :: '[' :: 'l' :: 'h' :: 'e' :: 'a' :: 'd' :: ' ' :: '=' :: ' ' :: 'c' :: 'l' :: 'u' :: 's' :: 't' :: 'e' :: 'r' :: '_' :: (showNat ld ++ (',' :: ' ' :: (dotLabel l ++ [']'])))))))))) := by
  show edgeText c i a ch ld l = _
  unfold edgeText
  simp only [String.reduceToList, List.cons_append, List.nil_append]

set_option linter.unusedSimpArgs false

/-- What the third and the fifth character tell. -/
inductive LineKind : DotLine → List Char → Prop where
  | cluster {c t} : LineKind (.cluster c) (' ' :: ' ' :: 's' :: t)
  | close {t} : LineKind .close (' ' :: ' ' :: '}' :: t)
  | style {t} : LineKind .style (' ' :: ' ' :: ' ' :: ' ' :: 's' :: t)
  | node {c i l h t} : IsDigit h → LineKind (.node c i l) (' ' :: ' ' :: ' ' :: ' ' :: h :: t)
  | loop {c i a l h t} : IsDigit h → LineKind (.loop c i a l) (' ' :: ' ' :: h :: t)
  | edge {c i a ch ld l h t} : IsDigit h → LineKind (.edge c i a ch ld l) (' ' :: ' ' :: h :: t)

theorem DotLine.kind (x : DotLine) : LineKind x x.text := by
  cases x with
  | cluster c => simp only [clusterText_eq, styleText_eq, nodeText_eq, closeText_eq, loopText_eq, edgeText_eq, List.cons_append, List.nil_append]; exact .cluster
  | close => simp only [clusterText_eq, styleText_eq, nodeText_eq, closeText_eq, loopText_eq, edgeText_eq]; exact .close
  | style => simp only [clusterText_eq, styleText_eq, nodeText_eq, closeText_eq, loopText_eq, edgeText_eq]; exact .style
  | node c i l =>
    obtain ⟨h, t, e, hd⟩ := showNat_cons c
    simp only [clusterText_eq, styleText_eq, nodeText_eq, closeText_eq, loopText_eq, edgeText_eq, List.cons_append, List.nil_append, e]
    exact .node hd
  | loop c i a l =>
    obtain ⟨h, t, e, hd⟩ := showNat_cons c
    simp only [clusterText_eq, styleText_eq, nodeText_eq, closeText_eq, loopText_eq, edgeText_eq, List.cons_append, List.nil_append, e]
    exact .loop hd
  | edge c i a ch ld l =>
    obtain ⟨h, t, e, hd⟩ := showNat_cons c
    simp only [clusterText_eq, styleText_eq, nodeText_eq, closeText_eq, loopText_eq, edgeText_eq, List.cons_append, List.nil_append, e]
    exact .edge hd

theorem loop_ne_edge {c c' i i' a a' l l' ch ld} : (DotLine.loop c i a l).text ≠ (DotLine.edge c' i' a' ch ld l').text := by
  intro e
  simp only [clusterText_eq, styleText_eq, nodeText_eq, closeText_eq, loopText_eq, edgeText_eq, List.cons_append, List.nil_append, List.cons.injEq, true_and] at e
  obtain ⟨_, _, _, e1⟩ := source_sep e
  simp only [List.cons.injEq, true_and] at e1
  obtain ⟨_, e3⟩ := nat_sep (notDigit_of (by decide)) (notDigit_of (by decide)) e1
  have e4 := (List.cons.inj e3).2
  rw [show ∀ u : List Char, '0' :: u = showNat 0 ++ u from fun u => by rw [showNat_zero]; rfl] at e4
  obtain ⟨_, e5⟩ := nat_sep (notDigit_of (by decide)) (notDigit_of (by decide)) e4
  exact absurd (List.cons.inj e5).1 (by decide)

theorem DotLine.text_inj {x y : DotLine} (e : x.text = y.text) : x = y := by
  have nd : ∀ {c h : Char}, c = h → ¬ (48 ≤ c.toNat ∧ c.toNat ≤ 57) → IsDigit h → False := fun e h h' => notDigit_of h (e ▸ h')
  have key : ∀ {tx ty}, tx = ty → LineKind x tx → LineKind y ty → x.text = y.text → x = y := by
    intro tx ty e hx hy he
    cases hx <;> cases hy
    case cluster.cluster =>
      simp only [clusterText_eq, styleText_eq, nodeText_eq, closeText_eq, loopText_eq, edgeText_eq, List.cons_append, List.nil_append, List.cons.injEq, true_and] at he
      obtain ⟨rfl, _⟩ := nat_sep (notDigit_of (by decide)) (notDigit_of (by decide)) he
      rfl
    case close.close => rfl
    case style.style => rfl
    case node.node =>
      simp only [clusterText_eq, styleText_eq, nodeText_eq, closeText_eq, loopText_eq, edgeText_eq, List.cons_append, List.nil_append, List.cons.injEq, true_and] at he
      obtain ⟨rfl, e2⟩ := nat_sep (notDigit_of (by decide)) (notDigit_of (by decide)) he
      obtain ⟨rfl, e3⟩ := nat_sep (notDigit_of (by decide)) (notDigit_of (by decide)) (List.cons.inj e2).2
      simp only [List.cons.injEq, true_and] at e3
      rw [List.append_cancel_right e3]
    case loop.loop =>
      simp only [clusterText_eq, styleText_eq, nodeText_eq, closeText_eq, loopText_eq, edgeText_eq, List.cons_append, List.nil_append, List.cons.injEq, true_and] at he
      obtain ⟨rfl, rfl, rfl, e1⟩ := source_sep he
      simp only [List.cons.injEq, true_and, List.append_cancel_left_eq] at e1
      simp [dotLabel_inj e1]
    case edge.edge =>
      simp only [clusterText_eq, styleText_eq, nodeText_eq, closeText_eq, loopText_eq, edgeText_eq, List.cons_append, List.nil_append, List.cons.injEq, true_and] at he
      obtain ⟨rfl, rfl, rfl, e1⟩ := source_sep he
      simp only [List.cons.injEq, true_and] at e1
      obtain ⟨rfl, e2⟩ := nat_sep (notDigit_of (by decide)) (notDigit_of (by decide)) e1
      simp only [List.cons.injEq, true_and] at e2
      obtain ⟨rfl, rfl⟩ := head_sep e2
      rfl
    case loop.edge => exact absurd he loop_ne_edge
    case edge.loop => exact absurd he.symm loop_ne_edge
    all_goals
      exfalso
      simp only [List.cons.injEq, true_and] at e
      have h1 := e.1
      first
        | exact absurd h1 (by decide)
        | exact nd h1 (by decide) (by assumption)
        | exact nd h1.symm (by decide) (by assumption)
  exact key e x.kind y.kind e

theorem DotLine.noNewline {x : DotLine} (h : ∀ c i l, x = .node c i l → '\n' ∉ l) : '\n' ∉ x.text := by
  have hn : ∀ n, '\n' ∉ showNat n := fun n hc => absurd ((showNat_spec n).2.1 _ hc) (notDigit_of (by decide))
  have hl : ∀ l, '\n' ∉ dotLabel l := by
    intro l
    cases l with
    | none => simp [dotLabel]
    | some n => simp [dotLabel, hn]
  have ha : ∀ a : Anchor, '\n' ∉ a.text := by intro a; cases a <;> simp [Anchor.text]
  cases x with
  | cluster c => simp [clusterText_eq, styleText_eq, nodeText_eq, closeText_eq, loopText_eq, edgeText_eq, hn]
  | style => simp [clusterText_eq, styleText_eq, nodeText_eq, closeText_eq, loopText_eq, edgeText_eq]
  | node c i l => simp [clusterText_eq, styleText_eq, nodeText_eq, closeText_eq, loopText_eq, edgeText_eq, hn, h c i l rfl]
  | close => simp [clusterText_eq, styleText_eq, nodeText_eq, closeText_eq, loopText_eq, edgeText_eq]
  | loop c i a l => simp [clusterText_eq, styleText_eq, nodeText_eq, closeText_eq, loopText_eq, edgeText_eq, hn, hl, ha]
  | edge c i a ch ld l => simp [clusterText_eq, styleText_eq, nodeText_eq, closeText_eq, loopText_eq, edgeText_eq, hn, hl, ha]

theorem writeLines_inj : ∀ {ls ls' : List (List Char)}, (∀ l ∈ ls, '\n' ∉ l) → (∀ l ∈ ls', '\n' ∉ l) → writeLines ls = writeLines ls' → ls = ls' := by
  have split : ∀ {a b x y : List Char}, '\n' ∉ a → '\n' ∉ b → a ++ '\n' :: x = b ++ '\n' :: y → a = b ∧ x = y := by
    intro a
    induction a with
    | nil =>
      intro b x y _ hb e
      cases b with
      | nil => simpa using e
      | cons c b => simp at e; rw [← e.1] at hb; simp at hb
    | cons d a ih =>
      intro b x y ha hb e
      cases b with
      | nil => simp at e; rw [e.1] at ha; simp at ha
      | cons c b =>
        simp at e ha hb
        obtain ⟨h1, h2⟩ := ih ha.2 hb.2 e.2
        exact ⟨by rw [e.1, h1], h2⟩
  intro ls
  induction ls with
  | nil =>
    intro ls' _ _ e
    cases ls' with
    | nil => rfl
    | cons l ls' => simp [writeLines] at e
  | cons l ls ih =>
    intro ls' h h' e
    cases ls' with
    | nil => simp [writeLines] at e
    | cons l' ls' =>
      have e : l ++ '\n' :: writeLines ls = l' ++ '\n' :: writeLines ls' := by simpa [writeLines] using e
      obtain ⟨h1, h2⟩ := split (h l (List.mem_cons_self ..)) (h' l' (List.mem_cons_self ..)) e
      rw [h1, ih (fun x hx => h x (List.mem_cons_of_mem _ hx)) (fun x hx => h' x (List.mem_cons_of_mem _ hx)) h2]

end Egg
