import Verif.Spec.Document
import Verif.Model.Define
import Verif.Proofs.Calls

/-
Reading a tree that stands for a document makes the definition calls of the document.
-/

namespace Treerack
open Spec

/-! ### Comments -/

theorem dropComments_name (n : Node) : (dropComments n).name = n.name := by cases n; rfl

theorem dropComments_text (n : Node) : (dropComments n).text = n.text := by cases n; rfl

theorem dropComments_go : ∀ (ns : List Node),
    dropComments.go ns = (ns.filter fun m => m.name != runes "comment").map dropComments
  | [] => rfl
  | n :: ns => by
    rw [dropComments.go, List.filter_cons]
    cases h : n.name == runes "comment"
    · simp [bne, h, dropComments_go ns]
    · simp [bne, h, dropComments_go ns]

theorem dropComments_nodes (n : Node) : (dropComments n).nodes = (content n).map dropComments := by
  cases n with
  | mk a b c d ns =>
    show dropComments.go ns = _
    exact dropComments_go ns

/-! ### Characters and numbers -/

theorem denotes_unescape {x c : Rune} (h : Denotes x c) : unescapeChar x = c := by
  unfold Denotes controls at h
  unfold unescapeChar
  rcases h with h | ⟨h, rfl⟩
  · simp only [List.mem_cons, Prod.mk.injEq, List.not_mem_nil, or_false] at h
    rcases h with ⟨rfl, rfl⟩ | ⟨rfl, rfl⟩ | ⟨rfl, rfl⟩ | ⟨rfl, rfl⟩ | ⟨rfl, rfl⟩ | ⟨rfl, rfl⟩ <;> rfl
  · have h1 := h 8; have h2 := h 12; have h3 := h 10; have h4 := h 13; have h5 := h 9; have h6 := h 11
    simp only [List.mem_cons, Prod.mk.injEq, List.not_mem_nil, or_false, not_or] at h1 h2 h3 h4 h5 h6
    simp only [beq_iff_eq]
    repeat rw [if_neg (by rintro rfl; simp_all)]

theorem nodeChar_spec {n : Node} {c : Rune} (h : CharNode n c) : nodeChar (dropComments n) = .ok c := by
  unfold nodeChar
  rw [dropComments_text]
  rcases h with ⟨h, hc⟩ | ⟨x, h, hx⟩
  · rw [h.2]
    simp only [Res.bind_ok]
    split
    · rename_i heq; cases heq
    · rename_i heq; cases heq; exact absurd rfl hc
    · rename_i heq; cases heq
    · rename_i heq; cases heq; rfl
  · rw [h.2]
    simp only [Res.bind_ok]
    rw [denotes_unescape hx]

theorem nodeChars_spec {ns : List Node} {cs : List Rune} (h : CharNodes ns cs) :
    nodeChars (ns.map dropComments) = .ok cs := by
  induction h with
  | nil => rfl
  | cons h1 _ ih => simp [nodeChars, nodeChar_spec h1, ih]

theorem classMembers_spec {ns : List Node} {cs : List Rune} {rs : List (Rune × Rune)} (h : ClassNodes ns cs rs) :
    classMembers (ns.map dropComments) = .ok (cs, rs) := by
  induction h with
  | nil => rfl
  | char hn hc _ ih =>
    simp only [List.map_cons, classMembers, dropComments_name, hn, BEq.rfl, if_true, nodeChar_spec hc, ih, Res.bind_ok]
  | range hn h2 ha hb _ ih =>
    have hne : (runes "char-range" == runes "class-char") = false := by decide
    simp only [List.map_cons, classMembers, dropComments_name, hn, hne, Bool.false_eq_true, if_false, BEq.rfl, if_true,
      dropComments_nodes, h2, List.map_nil, nodeChar_spec ha, nodeChar_spec hb, ih, Res.bind_ok]

theorem digitsVal_spec : ∀ (t : List Rune) (v : Nat), (∀ d ∈ t, 48 ≤ d ∧ d ≤ 57) →
    digitsVal t v = some (t.foldl (fun v d => v * 10 + (d - 48)) v)
  | [], v, _ => rfl
  | d :: t, v, h => by
    rw [digitsVal, if_pos (h d (by simp)), digitsVal_spec t _ (fun x hx => h x (by simp [hx]))]
    rfl

theorem atoi_spec {t : List Rune} (h1 : t ≠ []) (h2 : ∀ d ∈ t, 48 ≤ d ∧ d ≤ 57) :
    atoi t = if decimal t < 2 ^ 63 then some (decimal t : Int) else none := by
  unfold atoi
  cases t with
  | nil => exact absurd rfl h1
  | cons d t =>
    simp only
    rw [digitsVal_spec _ _ h2]
    rfl

theorem number_spec {n : Node} {v : Nat} (h : NumberNode n v) :
    ∃ t, (dropComments n).text = .ok t ∧ atoi t = if v < 2 ^ 63 then some (v : Int) else none := by
  obtain ⟨t, h1, h2, h3, rfl⟩ := h
  exact ⟨t, by rw [dropComments_text]; exact h1.2, atoi_spec h2 h3⟩

theorem getQuantity_spec {q : Node} {x : Quantifier} (h : QuantifierNode q x) :
    getQuantity (dropComments q) = .ok (if x.fits then some x.range else none) := by
  have e1 : (runes "range-quantifier" == runes "count-quantifier") = false := by decide
  have e2 : (runes "one-or-more" == runes "count-quantifier") = false := by decide
  have e3 : (runes "one-or-more" == runes "range-quantifier") = false := by decide
  have e4 : (runes "zero-or-more" == runes "count-quantifier") = false := by decide
  have e5 : (runes "zero-or-more" == runes "range-quantifier") = false := by decide
  have e6 : (runes "zero-or-more" == runes "one-or-more") = false := by decide
  have e7 : (runes "zero-or-one" == runes "count-quantifier") = false := by decide
  have e8 : (runes "zero-or-one" == runes "range-quantifier") = false := by decide
  have e9 : (runes "zero-or-one" == runes "one-or-more") = false := by decide
  have e10 : (runes "zero-or-one" == runes "zero-or-more") = false := by decide
  have e11 : (runes "range-to" == runes "range-from") = false := by decide
  unfold getQuantity
  rw [dropComments_name, dropComments_nodes]
  cases h with
  | exactly hn hc hv =>
    obtain ⟨t, h1, h2⟩ := number_spec hv
    simp only [hn, BEq.rfl, if_true, hc, List.map_cons, h1, h2, Res.bind_ok, Quantifier.range, Quantifier.fits, decide_eq_true_eq]
    split <;> rfl
  | @between _ _ x y hn hc ha hv hb hw =>
    obtain ⟨t, h1, h2⟩ := number_spec hv
    obtain ⟨t', h3, h4⟩ := number_spec hw
    simp only [hn, e1, Bool.false_eq_true, if_false, BEq.rfl, if_true, hc, List.map_cons, List.map_nil, rangeQuantity,
      dropComments_name, ha, hb, h1, h2, h3, h4, e11, Res.bind_ok, Quantifier.range, Quantifier.fits, Bool.and_eq_true, decide_eq_true_eq]
    by_cases hx : x < 2 ^ 63 <;> by_cases hy : y < 2 ^ 63 <;> simp [hx, hy]
  | @atLeast _ x hn hc ha hv =>
    obtain ⟨t, h1, h2⟩ := number_spec hv
    simp only [hn, e1, Bool.false_eq_true, if_false, BEq.rfl, if_true, hc, List.map_cons, List.map_nil, rangeQuantity,
      dropComments_name, ha, h1, h2, Res.bind_ok, Quantifier.range, Quantifier.fits, decide_eq_true_eq]
    by_cases hx : x < 2 ^ 63 <;> simp [hx]
  | @atMost _ x hn hc hb hw =>
    obtain ⟨t', h3, h4⟩ := number_spec hw
    simp only [hn, e1, Bool.false_eq_true, if_false, BEq.rfl, if_true, hc, List.map_cons, List.map_nil, rangeQuantity,
      dropComments_name, hb, h3, h4, e11, Res.bind_ok, Quantifier.range, Quantifier.fits, decide_eq_true_eq]
    by_cases hx : x < 2 ^ 63 <;> simp [hx]
  | unbounded hn hc =>
    simp only [hn, e1, Bool.false_eq_true, if_false, BEq.rfl, if_true, hc, List.map_nil, rangeQuantity, Quantifier.range, Quantifier.fits]
  | oneOrMore hn =>
    simp only [hn, e2, e3, Bool.false_eq_true, if_false, BEq.rfl, if_true, Quantifier.range, Quantifier.fits]
  | zeroOrMore hn =>
    simp only [hn, e4, e5, e6, Bool.false_eq_true, if_false, BEq.rfl, if_true, Quantifier.range, Quantifier.fits]
  | zeroOrOne hn =>
    simp only [hn, e7, e8, e9, e10, Bool.false_eq_true, if_false, BEq.rfl, if_true, Quantifier.range, Quantifier.fits]

/-! ### Calls -/

theorem steps_append (s : Syntax) : ∀ (cs ds : List Step),
    s.steps (cs ++ ds) =
      match s.steps cs with
      | (s, none) => s.steps ds
      | (s, some e) => (s, some e)
  | [], ds => rfl
  | .overflow :: cs, ds => rfl
  | .call c :: cs, ds => by
    simp only [List.cons_append, Syntax.steps]
    generalize s.internalCall c = x
    obtain ⟨s1, e⟩ := x
    cases e with
    | none => exact steps_append s1 cs ds
    | some e => rfl

theorem steps_one (s : Syntax) (c : Call) : s.steps [.call c] = s.internalCall c := by
  simp only [Syntax.steps]
  generalize s.internalCall c = x
  obtain ⟨s1, e⟩ := x
  cases e <;> rfl

/-- The steps that define a member. -/
def memberSteps (n : Name) (i : Nat) (ct : Commit) : DExpr → List Step
  | .symbol _ => []
  | e => e.steps (charName n i) (memberFlags ct)

theorem itemsSteps_cons (n : Name) (ct : Commit) (i : Nat) (e : DExpr) (q : Option Quantifier) (rest : DItems) :
    (DItems.cons e q rest).steps n ct i = memberSteps n i ct e ++ (quantifierSteps q ++ rest.steps n ct (i + 1)) := by
  cases e <;> rfl

theorem optionsSteps_cons (n : Name) (ct : Commit) (i : Nat) (e : DExpr) (rest : DOptions) :
    (DOptions.cons e rest).steps n ct i = memberSteps n i ct e ++ rest.steps n ct (i + 1) := by
  cases e <;> rfl

/-- What a member is: the outcome of defining it, and the name it is referred to. -/
theorem defineMember_spec {rec : Syntax → Name → Commit → Node → Res (Syntax × Option SynErr)} {m : Node} {e : DExpr}
    (he : ExprNode m e)
    (hrec : ∀ s name ct, rec s name ct (dropComments m) = .ok (s.steps (e.steps name ct)))
    (s : Syntax) (n : Name) (i : Nat) (ct : Commit) :
    defineMember rec s (childName n i) (memberFlags ct) (dropComments m) =
      .ok ((s.steps (memberSteps n i ct e)).1, (s.steps (memberSteps n i ct e)).2, memberName n i e) := by
  unfold defineMember
  rw [dropComments_name, dropComments_text, hrec, ← charName_eq]
  cases he with
  | symbol h1 h2 => rw [h1, if_pos (by decide), h2.2]; rfl
  | any h1 => rw [h1]; rfl
  | class_ h1 _ => rw [h1]; rfl
  | classNot h1 _ _ _ => rw [h1]; rfl
  | chars h1 _ => rw [h1]; rfl
  | seq h1 _ => rw [h1]; rfl
  | choice h1 _ => rw [h1]; rfl

/-- Continuing after a member. -/
theorem member_step {α : Type} {s : Syntax} {mc rc : List Step} {run : Res (Syntax × Option SynErr × α)}
    {next : Syntax → Res (Syntax × Option SynErr × α)} {acc refs : α}
    (h1 : ∀ s1, s.steps mc = (s1, none) → run = next s1)
    (h2 : ∀ s1 err, s.steps mc = (s1, some err) → run = .ok (s1, some err, acc))
    (ih : ∀ s1 : Syntax, match (generalizing := false) s1.steps rc with
      | (s', none) => next s1 = .ok (s', none, refs)
      | (s', some e) => ∃ acc', next s1 = .ok (s', some e, acc')) :
    match (generalizing := false) s.steps (mc ++ rc) with
    | (s', none) => run = .ok (s', none, refs)
    | (s', some e) => ∃ acc', run = .ok (s', some e, acc') := by
  rw [steps_append]
  revert h1 h2
  generalize s.steps mc = x
  obtain ⟨s1, e⟩ := x
  intro h1 h2
  cases e with
  | none => rw [h1 s1 rfl]; exact ih s1
  | some e => exact ⟨acc, h2 s1 e rfl⟩

theorem depth_child {n m : Node} (h : m ∈ n.nodes) : m.depth < n.depth := by
  cases n with
  | mk a b c d ns =>
    have key : ∀ (l : List Node), m ∈ l → m.depth ≤ Node.depth.go l := by
      intro l
      induction l with
      | nil => intro h; cases h
      | cons x l ih =>
        intro h
        rw [Node.depth.go]
        rcases List.mem_cons.1 h with rfl | h
        · exact Nat.le_max_left _ _
        · exact Nat.le_trans (ih h) (Nat.le_max_right _ _)
    show m.depth < Node.depth.go ns + 1
    exact Nat.lt_succ_of_le (key ns h)

theorem depth_content {n m : Node} (h : m ∈ content n) : (dropComments m).depth < (dropComments n).depth :=
  depth_child (by rw [dropComments_nodes]; exact List.mem_map.2 ⟨m, h, rfl⟩)

mutual

theorem defineExpression_spec : ∀ {n : Node} {e : DExpr}, ExprNode n e → ∀ (k : Nat), (dropComments n).depth < k →
    ∀ (s : Syntax) (name : Name) (ct : Commit),
    defineExpression k s name ct (dropComments n) = .ok (s.steps (e.steps name ct))
  | _, _, _, 0, hk, _, _, _ => absurd hk (by omega)
  | n, _, .any h1, k + 1, hk, s, name, ct => by
    unfold defineExpression
    rw [dropComments_name, h1, if_pos (by decide), DExpr.steps, steps_one]
    rfl
  | n, _, .class_ (cs := cs) (rs := rs) h1 h2, k + 1, hk, s, name, ct => by
    unfold defineExpression
    rw [dropComments_name, h1, if_neg (by decide), if_pos (by decide), DExpr.steps, steps_one]
    unfold defineClass
    rw [dropComments_nodes]
    have h3 := classMembers_spec h2
    generalize content n = ms at h2 h3
    cases h2 with
    | nil => rfl
    | char hn _ _ =>
      simp only [List.map_cons, dropComments_name, hn] at h3 ⊢
      rw [if_neg (by decide)]
      simp only [h3]
      rfl
    | range hn _ _ _ _ =>
      simp only [List.map_cons, dropComments_name, hn] at h3 ⊢
      rw [if_neg (by decide)]
      simp only [h3]
      rfl
  | n, _, .classNot (x := x) (ms := ms) h1 h2 h3 h4, k + 1, hk, s, name, ct => by
    unfold defineExpression
    rw [dropComments_name, h1, if_neg (by decide), if_pos (by decide), DExpr.steps, steps_one]
    unfold defineClass
    rw [dropComments_nodes, h2]
    simp only [List.map_cons, dropComments_name, h3, BEq.rfl, if_true]
    rw [classMembers_spec h4]
    rfl
  | n, _, .chars h1 h2, k + 1, hk, s, name, ct => by
    unfold defineExpression
    rw [dropComments_name, h1, if_neg (by decide), if_neg (by decide), if_pos (by decide), DExpr.steps, steps_one]
    unfold defineCharSequence
    rw [dropComments_nodes, nodeChars_spec h2]
    rfl
  | n, _, .symbol h1 h2, k + 1, hk, s, name, ct => by
    unfold defineExpression
    rw [dropComments_name, h1, if_neg (by decide), if_neg (by decide), if_neg (by decide), if_pos (by decide),
      DExpr.steps, steps_one]
    unfold defineSymbol
    rw [dropComments_text, h2.2]
    rfl
  | n, _, .seq (items := items) h1 h2, k + 1, hk, s, name, ct => by
    have h3 := defineItems_spec h2 k (fun m hm x hx => by
      have a := depth_content hm; have b := depth_content hx; omega) s name ct 0 []
    unfold defineExpression
    rw [dropComments_name, h1, if_neg (by decide), if_neg (by decide), if_neg (by decide), if_neg (by decide),
      if_pos (by decide), DExpr.steps, steps_append, dropComments_nodes]
    generalize s.steps (items.steps name ct 0) = x at h3
    obtain ⟨s1, e⟩ := x
    cases e with
    | none =>
      simp only at h3 ⊢
      rw [h3, Res.bind_ok, steps_one]
      rfl
    | some e =>
      obtain ⟨acc, h3⟩ := h3
      rw [h3]
      rfl
  | n, _, .choice (os := os) h1 h2, k + 1, hk, s, name, ct => by
    have h3 := defineOptions_spec h2 k (fun m hm => by
      have a := depth_content hm; omega) s name ct 0 []
    unfold defineExpression
    rw [dropComments_name, h1, if_neg (by decide), if_neg (by decide), if_neg (by decide), if_neg (by decide),
      if_neg (by decide), if_pos (by decide), DExpr.steps, steps_append, dropComments_nodes]
    generalize s.steps (os.steps name ct 0) = x at h3
    obtain ⟨s1, e⟩ := x
    cases e with
    | none =>
      simp only at h3 ⊢
      rw [h3, Res.bind_ok, steps_one]
      rfl
    | some e =>
      obtain ⟨acc, h3⟩ := h3
      rw [h3]
      rfl

theorem defineItems_spec : ∀ {ns : List Node} {items : DItems}, ItemNodes ns items → ∀ (k : Nat),
    (∀ m ∈ ns, ∀ x ∈ content m, (dropComments x).depth < k) →
    ∀ (s : Syntax) (name : Name) (ct : Commit) (i : Nat) (acc : List SeqItem),
    match (generalizing := false) s.steps (items.steps name ct i) with
    | (s', none) => defineItems (defineExpression k) name ct i (ns.map dropComments) acc s =
        .ok (s', none, acc ++ items.refs name i)
    | (s', some e) => ∃ acc', defineItems (defineExpression k) name ct i (ns.map dropComments) acc s = .ok (s', some e, acc')
  | _, _, .nil, _, _, s, name, ct, i, acc => by simp [DItems.steps, DItems.refs, Syntax.steps, defineItems]
  | _, _, .once (n := n) (m := m) (ns := ns) (e := e) (rest := rest) hc he hr, k, hk, s, name, ct, i, acc => by
    have hm := defineMember_spec he (rec := defineExpression k) (fun s name ct => defineExpression_spec he k (hk n (by simp) m (by rw [hc]; simp)) s name ct)
      s name i ct
    have ih := defineItems_spec hr k (fun m hm => hk m (by simp [hm]))
    have step : ∀ s1, s.steps (memberSteps name i ct e) = (s1, none) →
        defineItems (defineExpression k) name ct i ((n :: ns).map dropComments) acc s =
          defineItems (defineExpression k) name ct (i + 1) (ns.map dropComments)
            (acc ++ [{ name := memberName name i e, min := 0, max := 0 }]) s1 := by
      intro s1 h
      rw [h] at hm
      rw [List.map_cons, defineItems, dropComments_nodes, hc]
      simp only [List.map_cons, List.map_nil]
      rw [show ({ alias := true, noWhitespace := ct.noWhitespace } : Commit) = memberFlags ct from rfl, hm]
      rfl
    have fail : ∀ s1 err, s.steps (memberSteps name i ct e) = (s1, some err) →
        defineItems (defineExpression k) name ct i ((n :: ns).map dropComments) acc s = .ok (s1, some err, acc) := by
      intro s1 err h
      rw [h] at hm
      rw [List.map_cons, defineItems, dropComments_nodes, hc]
      simp only [List.map_cons, List.map_nil]
      rw [show ({ alias := true, noWhitespace := ct.noWhitespace } : Commit) = memberFlags ct from rfl, hm]
      rfl
    rw [itemsSteps_cons]
    exact member_step step fail (fun s1 => by
      have := ih s1 name ct (i + 1) (acc ++ [{ name := memberName name i e, min := 0, max := 0 }])
      rw [List.append_assoc] at this
      exact this)
  | _, _, .many (n := n) (m := m) (q := q) (ns := ns) (e := e) (x := x) (rest := rest) hc he hq hr, k, hk, s, name, ct, i, acc => by
    have hm := defineMember_spec he (rec := defineExpression k) (fun s name ct => defineExpression_spec he k (hk n (by simp) m (by rw [hc]; simp)) s name ct)
      s name i ct
    have ih := defineItems_spec hr k (fun m hm => hk m (by simp [hm]))
    have step : ∀ s1, s.steps (memberSteps name i ct e) = (s1, none) →
        defineItems (defineExpression k) name ct i ((n :: ns).map dropComments) acc s =
          if x.fits then defineItems (defineExpression k) name ct (i + 1) (ns.map dropComments)
            (acc ++ [{ name := memberName name i e, min := x.range.1, max := x.range.2 }]) s1
          else .ok (s1, some .number, acc) := by
      intro s1 h
      rw [h] at hm
      rw [List.map_cons, defineItems, dropComments_nodes, hc]
      simp only [List.map_cons, List.map_nil]
      rw [show ({ alias := true, noWhitespace := ct.noWhitespace } : Commit) = memberFlags ct from rfl, hm]
      simp only [Res.bind_ok]
      rw [getQuantity_spec hq]
      split <;> rfl
    have fail : ∀ s1 err, s.steps (memberSteps name i ct e) = (s1, some err) →
        defineItems (defineExpression k) name ct i ((n :: ns).map dropComments) acc s = .ok (s1, some err, acc) := by
      intro s1 err h
      rw [h] at hm
      rw [List.map_cons, defineItems, dropComments_nodes, hc]
      simp only [List.map_cons, List.map_nil]
      rw [show ({ alias := true, noWhitespace := ct.noWhitespace } : Commit) = memberFlags ct from rfl, hm]
      rfl
    rw [itemsSteps_cons]
    refine member_step step fail (fun s1 => ?_)
    by_cases hx : x.fits = true
    · have := ih s1 name ct (i + 1) (acc ++ [{ name := memberName name i e, min := x.range.1, max := x.range.2 }])
      rw [List.append_assoc] at this
      simp only [quantifierSteps, if_pos hx]
      exact this
    · simp only [quantifierSteps, if_neg hx, Syntax.steps, List.cons_append]
      exact ⟨acc, rfl⟩

theorem defineOptions_spec : ∀ {ns : List Node} {os : DOptions}, OptionNodes ns os → ∀ (k : Nat),
    (∀ m ∈ ns, (dropComments m).depth < k) →
    ∀ (s : Syntax) (name : Name) (ct : Commit) (i : Nat) (acc : List Name),
    match (generalizing := false) s.steps (os.steps name ct i) with
    | (s', none) => defineOptions (defineExpression k) name ct i (ns.map dropComments) acc s =
        .ok (s', none, acc ++ os.refs name i)
    | (s', some e) => ∃ acc', defineOptions (defineExpression k) name ct i (ns.map dropComments) acc s = .ok (s', some e, acc')
  | _, _, .nil, _, _, s, name, ct, i, acc => by simp [DOptions.steps, DOptions.refs, Syntax.steps, defineOptions]
  | _, _, .cons (n := n) (ns := ns) (e := e) (rest := rest) he hr, k, hk, s, name, ct, i, acc => by
    have hm := defineMember_spec he (rec := defineExpression k) (fun s name ct => defineExpression_spec he k (hk n (by simp)) s name ct)
      s name i ct
    have ih := defineOptions_spec hr k (fun m hm => hk m (by simp [hm]))
    have step : ∀ s1, s.steps (memberSteps name i ct e) = (s1, none) →
        defineOptions (defineExpression k) name ct i ((n :: ns).map dropComments) acc s =
          defineOptions (defineExpression k) name ct (i + 1) (ns.map dropComments) (acc ++ [memberName name i e]) s1 := by
      intro s1 h
      rw [h] at hm
      rw [List.map_cons, defineOptions]
      rw [show ({ alias := true, noWhitespace := ct.noWhitespace } : Commit) = memberFlags ct from rfl, hm]
      rfl
    have fail : ∀ s1 err, s.steps (memberSteps name i ct e) = (s1, some err) →
        defineOptions (defineExpression k) name ct i ((n :: ns).map dropComments) acc s = .ok (s1, some err, acc) := by
      intro s1 err h
      rw [h] at hm
      rw [List.map_cons, defineOptions]
      rw [show ({ alias := true, noWhitespace := ct.noWhitespace } : Commit) = memberFlags ct from rfl, hm]
      rfl
    rw [optionsSteps_cons]
    exact member_step step fail (fun s1 => by
      have := ih s1 name ct (i + 1) (acc ++ [memberName name i e])
      rw [List.append_assoc] at this
      exact this)

end

/-! ### Steps and calls -/

/-- The calls among the steps. -/
def callsOf : List Step → List Call
  | [] => []
  | .call c :: l => c :: callsOf l
  | .overflow :: l => callsOf l

theorem callsOf_append : ∀ (l l' : List Step), callsOf (l ++ l') = callsOf l ++ callsOf l'
  | [], _ => rfl
  | .call c :: l, l' => congrArg (c :: ·) (callsOf_append l l')
  | .overflow :: l, l' => callsOf_append l l'

theorem callsOf_map : ∀ (l : List Call), callsOf (l.map .call) = l
  | [] => rfl
  | c :: l => congrArg (c :: ·) (callsOf_map l)

theorem callsOf_quantifier : ∀ (q : Option Quantifier), callsOf (quantifierSteps q) = []
  | none => rfl
  | some q => by simp only [quantifierSteps]; split <;> rfl

mutual
theorem callsOf_expr : ∀ (e : DExpr) (n : Name) (ct : Commit), callsOf (e.steps n ct) = e.calls n ct
  | .any, _, _ => rfl
  | .class_ .., _, _ => rfl
  | .chars _, _, _ => rfl
  | .symbol _, _, _ => rfl
  | .seq items, n, ct => by rw [DExpr.steps, DExpr.calls, callsOf_append, callsOf_items]; rfl
  | .choice os, n, ct => by rw [DExpr.steps, DExpr.calls, callsOf_append, callsOf_options]; rfl
theorem callsOf_items : ∀ (items : DItems) (n : Name) (ct : Commit) (i : Nat), callsOf (items.steps n ct i) = items.calls n ct i
  | .nil, _, _, _ => rfl
  | .cons e q rest, n, ct, i => by
    have h1 := callsOf_expr e (charName n i) (memberFlags ct)
    have h2 := callsOf_items rest n ct (i + 1)
    have h3 := callsOf_quantifier q
    cases e <;> simp only [DItems.steps, DItems.calls, callsOf_append, h1, h2, h3, List.nil_append]
theorem callsOf_options : ∀ (os : DOptions) (n : Name) (ct : Commit) (i : Nat), callsOf (os.steps n ct i) = os.calls n ct i
  | .nil, _, _, _ => rfl
  | .cons e rest, n, ct, i => by
    have h1 := callsOf_expr e (charName n i) (memberFlags ct)
    have h2 := callsOf_options rest n ct (i + 1)
    cases e <;> simp only [DOptions.steps, DOptions.calls, callsOf_append, h1, h2]
end

theorem callsOf_document : ∀ (doc : Document), callsOf (documentSteps doc) = documentCalls doc
  | [] => rfl
  | d :: doc => by
    have := callsOf_document doc
    unfold documentSteps documentCalls at *
    rw [List.flatMap_cons, List.flatMap_cons, callsOf_append, callsOf_expr, this]

/-- When all steps succeed. -/
theorem steps_none : ∀ {l : List Step} {s s' : Syntax}, s.steps l = (s', none) →
    s.internalCalls (callsOf l) = (s', none) ∧ ∀ x ∈ l, ∃ c, x = .call c
  | [], s, s', h => ⟨h, fun x hx => by cases hx⟩
  | .overflow :: l, s, s', h => by simp [Syntax.steps] at h
  | .call c :: l, s, s', h => by
    simp only [Syntax.steps] at h
    simp only [callsOf, Syntax.internalCalls]
    revert h
    generalize s.internalCall c = x
    obtain ⟨s1, e⟩ := x
    cases e with
    | none =>
      intro h
      obtain ⟨h1, h2⟩ := steps_none h
      exact ⟨h1, fun x hx => (List.mem_cons.1 hx).elim (fun h => ⟨c, h⟩) (h2 x)⟩
    | some e => intro h; cases h

theorem steps_calls : ∀ {l : List Step}, (∀ x ∈ l, ∃ c, x = .call c) → ∀ (s : Syntax), s.steps l = s.internalCalls (callsOf l)
  | [], _, _ => rfl
  | .overflow :: l, h, _ => by obtain ⟨c, hc⟩ := h _ List.mem_cons_self; cases hc
  | .call c :: l, h, s => by
    simp only [Syntax.steps, callsOf, Syntax.internalCalls]
    generalize s.internalCall c = x
    obtain ⟨s1, e⟩ := x
    cases e with
    | none => exact steps_calls (fun x hx => h x (List.mem_cons_of_mem _ hx)) s1
    | some e => rfl

theorem quantifier_fits {q : Option Quantifier} : q.all Quantifier.fits = true ↔ ∀ x ∈ quantifierSteps q, ∃ c, x = .call c := by
  cases q with
  | none => simp [quantifierSteps]
  | some q =>
    unfold quantifierSteps
    by_cases h : q.fits = true <;> simp [h]

theorem forall_append {α : Type} {P : α → Prop} {l l' : List α} : (∀ x ∈ l ++ l', P x) ↔ (∀ x ∈ l, P x) ∧ ∀ x ∈ l', P x := by
  simp only [List.mem_append, or_imp, forall_and]

mutual
theorem expr_fits : ∀ (e : DExpr) (n : Name) (ct : Commit), e.fits = true ↔ ∀ x ∈ e.steps n ct, ∃ c, x = .call c
  | .any, _, _ => by simp [DExpr.fits, DExpr.steps]
  | .class_ .., _, _ => by simp [DExpr.fits, DExpr.steps]
  | .chars _, _, _ => by simp [DExpr.fits, DExpr.steps]
  | .symbol _, _, _ => by simp [DExpr.fits, DExpr.steps]
  | .seq items, n, ct => by rw [DExpr.steps, DExpr.fits, forall_append, items_fits items n ct 0]; simp
  | .choice os, n, ct => by rw [DExpr.steps, DExpr.fits, forall_append, options_fits os n ct 0]; simp
theorem items_fits : ∀ (items : DItems) (n : Name) (ct : Commit) (i : Nat), items.fits = true ↔ ∀ x ∈ items.steps n ct i, ∃ c, x = .call c
  | .nil, _, _, _ => by simp [DItems.fits, DItems.steps]
  | .cons e q rest, n, ct, i => by
    have h1 := expr_fits e (charName n i) (memberFlags ct)
    have h2 := items_fits rest n ct (i + 1)
    have h3 := quantifier_fits (q := q)
    rw [DItems.fits, Bool.and_eq_true, Bool.and_eq_true]
    cases e <;> simp only [DItems.steps, forall_append, h2, h3] <;> simp only [h1, and_assoc]
    simp [DExpr.steps]
theorem options_fits : ∀ (os : DOptions) (n : Name) (ct : Commit) (i : Nat), os.fits = true ↔ ∀ x ∈ os.steps n ct i, ∃ c, x = .call c
  | .nil, _, _, _ => by simp [DOptions.fits, DOptions.steps]
  | .cons e rest, n, ct, i => by
    have h1 := expr_fits e (charName n i) (memberFlags ct)
    have h2 := options_fits rest n ct (i + 1)
    rw [DOptions.fits, Bool.and_eq_true]
    cases e <;> simp only [DOptions.steps, forall_append, h2] <;> simp only [h1]
    simp [DExpr.steps]
end

theorem document_fits : ∀ (doc : Document), doc.fits = true ↔ ∀ x ∈ documentSteps doc, ∃ c, x = .call c
  | [] => by simp [documentSteps, Document.fits]
  | d :: doc => by
    have := document_fits doc
    unfold documentSteps Document.fits at *
    rw [List.flatMap_cons, forall_append, List.all_cons, Bool.and_eq_true, this, expr_fits]

/-! ### Definitions and documents -/

theorem flagsToCommitType_spec (ns : List Node) : flagsToCommitType ns = flagsOf (ns.map Node.name) := by
  have key : ∀ (ns : List Node) (ct : Commit),
      ns.foldl (fun ct n =>
        if n.name == runes "alias" then { ct with alias := true }
        else if n.name == runes "ws" then { ct with whitespace := true }
        else if n.name == runes "nows" then { ct with noWhitespace := true }
        else if n.name == runes "kw" then { ct with keyword := true }
        else if n.name == runes "nokw" then { ct with noKeyword := true }
        else if n.name == runes "failpass" then { ct with failPass := true }
        else if n.name == runes "root" then { ct with root := true }
        else ct) ct =
      { ct with
        alias := ct.alias || (ns.map Node.name).contains (runes "alias")
        whitespace := ct.whitespace || (ns.map Node.name).contains (runes "ws")
        noWhitespace := ct.noWhitespace || (ns.map Node.name).contains (runes "nows")
        keyword := ct.keyword || (ns.map Node.name).contains (runes "kw")
        noKeyword := ct.noKeyword || (ns.map Node.name).contains (runes "nokw")
        failPass := ct.failPass || (ns.map Node.name).contains (runes "failpass")
        root := ct.root || (ns.map Node.name).contains (runes "root") } := by
    intro ns
    induction ns with
    | nil => intro ct; simp
    | cons n ns ih =>
      intro ct
      rw [List.foldl_cons, ih]
      simp only [List.map_cons, List.contains_cons, beq_iff_eq]
      generalize n.name = x
      by_cases h1 : x = runes "alias"
      · subst h1; simp [runes]
      · by_cases h2 : x = runes "ws"
        · subst h2; simp [runes]
        · by_cases h3 : x = runes "nows"
          · subst h3; simp [runes]
          · by_cases h4 : x = runes "kw"
            · subst h4; simp [runes]
            · by_cases h5 : x = runes "nokw"
              · subst h5; simp [runes]
              · by_cases h6 : x = runes "failpass"
                · subst h6; simp [runes]
                · by_cases h7 : x = runes "root"
                  · subst h7; simp [runes]
                  · simp only [h1, h2, h3, h4, h5, h6, h7, if_false]
                    have e : ∀ y, x ≠ y → (y == x) = false := fun y h => by simpa using fun h' => h h'.symm
                    simp only [e _ h1, e _ h2, e _ h3, e _ h4, e _ h5, e _ h6, e _ h7, Bool.false_or]
  have h := key ns {}
  simp only [Bool.false_or] at h
  exact h

theorem addDefinition_spec {n : Node} {d : DDef} (h : DefinitionNode n d) (s : Syntax) :
    addDefinition s (dropComments n) = .ok (s.steps (d.expr.steps d.name { d.flags with userDefined := true })) := by
  obtain ⟨x, fs, e, hc, hx, hf, he⟩ := h.parts
  unfold addDefinition
  rw [dropComments_nodes, hc]
  have e1 : ((x :: fs ++ [e]).map dropComments) = dropComments x :: (fs.map dropComments ++ [dropComments e]) := by simp
  rw [e1]
  have e2 : ∃ y ys, fs.map dropComments ++ [dropComments e] = y :: ys := by
    cases fs with
    | nil => exact ⟨_, _, rfl⟩
    | cons f fs => exact ⟨_, _, rfl⟩
  have e3 : (fs.map dropComments ++ [dropComments e]).getLast? = some (dropComments e) := by simp
  have e4 : (fs.map dropComments ++ [dropComments e]).dropLast = fs.map dropComments := by simp
  obtain ⟨y, ys, e2⟩ := e2
  rw [e2] at e3 e4 ⊢
  simp only [e3, e4, dropComments_text, hx.2, Res.bind_ok]
  rw [defineExpression_spec he _ (Nat.lt_succ_self _), flagsToCommitType_spec, hf]
  have : (fs.map dropComments).map Node.name = fs.map Node.name := by
    rw [List.map_map]; exact List.map_congr_left fun n _ => dropComments_name n
  rw [this]

theorem defineAll_spec {ns : List Node} {doc : Document} (h : DefinitionNodes ns doc) : ∀ (s : Syntax),
    defineAll (ns.map dropComments) s = .ok (s.steps (documentSteps doc)) := by
  induction h with
  | nil => intro s; rfl
  | cons h1 _ ih =>
    intro s
    rw [List.map_cons, defineAll, addDefinition_spec h1, Res.bind_ok]
    unfold documentSteps
    rw [List.flatMap_cons, steps_append]
    generalize s.steps _ = x
    obtain ⟨s1, e⟩ := x
    cases e with
    | none => exact ih s1
    | some e => rfl

theorem define_spec {tree : Node} {doc : Document} (h : DocumentNode tree doc) (s : Syntax) :
    define s tree = .ok (s.steps (documentSteps doc)) := by
  unfold define
  rw [dropComments_nodes]
  exact defineAll_spec h s

end Treerack
