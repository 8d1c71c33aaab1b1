import Verif.Proofs.Trace
import Verif.Proofs.Linked

/-
The attempts are inside of the input, and the number of the attempts of choices.
-/

namespace Treerack

/-- From the parser to the traced parser. -/
theorem Traced.Holds.ofSpec {env : Env} {n : Nat} {p : Ptr} {c : Ctx} {pb ob : Prop} {P : Ctx → Prop}
    (h : (parse env n p c).Spec pb ob P) : (parseTraced env n p c).Holds fun c' _ => P c' := by
  intro c' t e
  have := parseTraced_erase env n p c
  rw [e] at this
  exact h.of_eq this.symm

theorem Traced.Holds.and {α : Type} {x : Traced α} {P Q : α → List Event → Prop} (h : x.Holds P) (h' : x.Holds Q) :
    x.Holds fun a t => P a t ∧ Q a t :=
  fun a t e => ⟨h a t e, h' a t e⟩

/-- The events are calls of the parsers in `R`, inside of the input. -/
def Located (R : Ptr → Prop) (L : Nat) (tr : List Event) : Prop := ∀ e ∈ tr, R e.1 ∧ e.2 ≤ L

theorem Located.nil {R : Ptr → Prop} {L : Nat} : Located R L [] := fun _ h => by cases h

theorem Located.append {R : Ptr → Prop} {L : Nat} {t u : List Event} (h : Located R L t) (h' : Located R L u) : Located R L (t ++ u) :=
  fun e he => (List.mem_append.1 he).elim (h e) (h' e)

section
variable {env : Env} {R : Ptr → Prop} {input : List Rune} {rend : Option Nat}

/-- The context during the parsing. -/
abbrev InvT (env : Env) (input : List Rune) (rend : Option Nat) (c : Ctx) : Prop := Inv env input rend (fun _ _ _ => True) c

/-- What is assumed of the nested calls. -/
def LocRec (env : Env) (R : Ptr → Prop) (input : List Rune) (rend : Option Nat) (recT : Ptr → Ctx → Traced Ctx) : Prop :=
  ∀ p c, R p → InvT env input rend c →
    (recT p c).Holds fun c' tr => Located R input.length tr ∧ InvT env input rend c' ∧ c.tokens.length ≤ c'.tokens.length ∧
      (c'.matchLast = true → c.offset ≤ c'.offset)

variable {recT : Ptr → Ctx → Traced Ctx} (hrec : LocRec env R input rend recT)
include hrec

theorem isKeywordLoopT_loc (from_ to : Nat) : ∀ (kws : List Ptr) (c : Ctx), (∀ k ∈ kws, R k) → InvT env input rend c →
    from_ ≤ c.tokens.length → (isKeywordLoopT recT from_ to kws c).Holds fun _ tr => Located R input.length tr
  | [], c, _, _, _ => .lift fun a e => .nil
  | kw :: kws, c, hR, h, hf => by
    unfold isKeywordLoopT
    refine (hrec kw _ (hR kw (by simp)) (h.setOffset hf)).bind fun c1 t h1 => ?_
    obtain ⟨h1, h2, h3, -⟩ := h1
    simp only at h3
    split
    · exact .lift fun a e => by simpa using h1
    · exact (isKeywordLoopT_loc from_ to kws c1 (fun k hk => hR k (by simp [hk])) h2 (by omega)).mono fun a u hu => h1.append hu

theorem isKeywordT_loc {kws : List Ptr} (hR : ∀ k ∈ kws, R k) {c : Ctx} {from_ to : Nat} (h : InvT env input rend c)
    (hf : from_ ≤ c.tokens.length) : (isKeywordT recT kws c from_ to).Holds fun _ tr => Located R input.length tr := by
  unfold isKeywordT
  refine (isKeywordLoopT_loc hrec from_ to kws _ hR (h.setLimit (l := (to : Int))) hf).bind fun x t h => ?_
  exact .lift fun a e => by simpa using h

theorem choicePassT_loc (id from_ : Nat) : ∀ (os : List Ptr) (st : ChoiceSt), (∀ o ∈ os, R o) → InvT env input rend st.c →
    st.c.offset = from_ →
    (choicePassT recT id from_ os st).Holds fun st' tr => Located R input.length tr ∧ InvT env input rend st'.c ∧ st'.c.offset = from_
  | [], st, _, h, ho => .lift fun a e => by cases e; exact ⟨.nil, h, ho⟩
  | x :: os, st, hR, h, ho => by
    unfold choicePassT
    refine (hrec x _ (hR x (by simp)) h).bind fun c1 t h1 => ?_
    obtain ⟨h1, h2, h3, h4⟩ := h1
    have hlen := h.off
    simp only
    have next : ∀ (st' : ChoiceSt), InvT env input rend st'.c → st'.c.offset = from_ →
        (choicePassT recT id from_ os st').Holds fun st' u => Located R input.length (t ++ u) ∧ InvT env input rend st'.c ∧ st'.c.offset = from_ :=
      fun st' hi hoff => (choicePassT_loc id from_ os st' (fun o ho => hR o (by simp [ho])) hi hoff).mono
        fun st'' u hu => ⟨h1.append hu.1, hu.2⟩
    have hno : InvT env input rend { c1 with offset := from_ } := h2.setOffset (by omega)
    have hyes : c1.matchLast = true →
        InvT env input rend { c1 with offset := from_, res := c1.res.setMatch from_ id c1.offset } := by
      intro hm
      refine Inv.setRes (c := { c1 with offset := from_ }) hno (fun off i to hh => ?_) (hno.once.setMatch _ _ _)
      rcases (Results.has_setMatch ..).1 hh with hh | ⟨rfl, rfl, rfl⟩
      · exact h2.store _ _ _ hh
      · have := h4 hm
        exact ⟨by omega, h2.off, trivial⟩
    split <;> split
    · exact next _ hno rfl
    · rename_i hq
      refine next _ (hyes ?_) rfl
      simp only [Bool.or_eq_true, not_or, Bool.not_eq_true', Bool.not_eq_false] at hq
      exact hq.1
    · exact next _ hno rfl
    · rename_i hq
      refine next _ (hyes ?_) rfl
      simp only [Bool.or_eq_true, not_or, Bool.not_eq_true', Bool.not_eq_false] at hq
      exact hq.1

theorem choiceLoopT_loc (id from_ : Nat) (os : List Ptr) (hR : ∀ o ∈ os, R o) : ∀ (n : Nat) (st : ChoiceSt), InvT env input rend st.c →
    st.c.offset = from_ →
    (choiceLoopT recT id from_ os n st).Holds fun st' tr => Located R input.length tr ∧ InvT env input rend st'.c ∧ st'.c.offset = from_
  | 0, st, _, _ => .lift fun a e => by cases e
  | n + 1, st, h, ho => by
    unfold choiceLoopT
    refine (choicePassT_loc hrec id from_ os { st with found := false } hR h ho).bind fun st1 t h1 => ?_
    split
    · exact (choiceLoopT_loc id from_ os hR n st1 h1.2.1 h1.2.2).mono fun st' u hu => ⟨h1.1.append hu.1, hu.2⟩
    · exact .lift fun a e => by cases e; simpa using h1

omit hrec in
theorem Inv.mark {c : Ctx} (h : InvT env input rend c) (o i : Nat) : InvT env input rend { c with res := c.res.markPending o i } :=
  h.setRes (fun off id to ht => h.store off id to (by simpa using ht)) (h.once.markPending _ _)

theorem choiceParseT_loc {kws : List Ptr} (hkw : ∀ k ∈ kws, R k) (n : Nat) {p : Ptr} (hp : R p) (d : PDef) {os : List Ptr}
    (hR : ∀ o ∈ os, R o) {c : Ctx} (h : InvT env input rend c) :
    (choiceParseT recT kws n p d os c).Holds fun _ tr => Located R input.length tr := by
  unfold choiceParseT
  have hlen := h.tokens_length
  have hoff := h.off
  split
  · exact .lift fun a e => .nil
  · split
    · exact .lift fun a e => .nil
    · simp only
      refine .record (Traced.Holds.mono (P := fun _ tr => Located R input.length tr) ?_ fun _ tr ht e he => ?_)
      · refine (choiceLoopT_loc hrec d.id c.offset os hR n _ (Inv.mark h c.offset d.id) rfl).bind fun st t h1 => ?_
        obtain ⟨h1, h2, h3⟩ := h1
        have hf : c.offset ≤ st.c.tokens.length := by rw [← h3]; exact h2.off
        split
        · refine Traced.Holds.bind (P := fun _ u => Located R input.length u) ?_ fun x u hx => ?_
          · split
            · exact isKeywordT_loc hrec hkw h2 hf
            · exact .lift fun a e => .nil
          · obtain ⟨kw, c2⟩ := x
            simp only
            split <;> exact .lift fun a e => by simpa using h1.append hx
        · exact .lift fun a e => by simpa using h1
      · rcases List.mem_cons.1 he with rfl | he
        · exact ⟨hp, by simp only; omega⟩
        · exact ht e he

theorem seqLoopT_loc (p : Ptr) (d : PDef) (ac : Bool) (from_ : Nat) :
    ∀ (n : Nat) (its : List (Ptr × (Int × Int))) (m to : Nat) (c : Ctx), (∀ x ∈ its, R x.1) → InvT env input rend c →
    from_ ≤ c.tokens.length →
    (seqLoopT recT p d ac from_ n its m to c).Holds fun out tr => Located R input.length tr ∧ match out with
      | .complete _ c' => InvT env input rend c' ∧ from_ ≤ c'.tokens.length
      | .returned _ => True
  | 0, _, _, _, _, _, _, _ => .lift fun a e => by cases e
  | n + 1, [], _, _, c, _, h, hf => .lift fun a e => by cases e; exact ⟨.nil, h, hf⟩
  | n + 1, (item, mn, mx) :: rest, m, to, c, hR, h, hf => by
    unfold seqLoopT
    refine (hrec item _ (hR _ List.mem_cons_self) h).bind fun c1 t h1 => ?_
    obtain ⟨h1, h2, h3, -⟩ := h1
    have next : ∀ {its' : List (Ptr × (Int × Int))} {m' to' : Nat}, (∀ x ∈ its', R x.1) →
        (seqLoopT recT p d ac from_ n its' m' to' c1).Holds fun out u => Located R input.length (t ++ u) ∧ match out with
          | .complete _ c' => InvT env input rend c' ∧ from_ ≤ c'.tokens.length
          | .returned _ => True :=
      fun hR' => (seqLoopT_loc p d ac from_ n _ _ _ c1 hR' h2 (by omega)).mono fun out u hu => ⟨h1.append hu.1, hu.2⟩
    have hrest : ∀ x ∈ rest, R x.1 := fun x hx => hR x (List.mem_cons_of_mem _ hx)
    split
    · split
      · exact next hrest
      · refine .lift fun a e => ?_
        obtain ⟨c2, -, e⟩ := Res.bind_eq_ok e
        cases e
        exact ⟨by simpa using h1, trivial⟩
    · simp only
      split <;> split <;> first | exact next hrest | exact next hR

theorem seqParseT_loc {kws : List Ptr} (hkw : ∀ k ∈ kws, R k) (n : Nat) {p : Ptr} (hp : R p) (d : PDef) {is : List Ptr}
    {rs : List (Int × Int)} {ac : Bool} (hR : ∀ o ∈ is, R o) {c : Ctx} (h : InvT env input rend c) :
    (seqParseT recT kws n p d is rs ac c).Holds fun _ tr => Located R input.length tr := by
  unfold seqParseT
  have hlen := h.tokens_length
  have hoff := h.off
  split
  · exact .lift fun a e => .nil
  · simp only
    refine .record (Traced.Holds.mono (P := fun _ tr => Located R input.length tr) ?_ fun _ tr ht e he => ?_)
    · have hc : InvT env input rend (if ac = true then c else { c with res := c.res.markPending c.offset d.id }) ∧
          c.offset ≤ (if ac = true then c else { c with res := c.res.markPending c.offset d.id }).tokens.length := by
        split
        · exact ⟨h, hoff⟩
        · exact ⟨Inv.mark h _ _, hoff⟩
      refine (seqLoopT_loc hrec p d ac c.offset n (is.zip rs) 0 c.offset _ (fun x hx => hR _ (List.of_mem_zip hx).1) hc.1 hc.2).bind
        fun out t h1 => ?_
      obtain ⟨h1, h2⟩ := h1
      cases out with
      | returned c2 => exact .lift fun a e => by simpa using h1
      | complete to c2 =>
        simp only at h2 ⊢
        refine Traced.Holds.bind (P := fun _ u => Located R input.length u) ?_ fun x u hx => ?_
        · split
          · exact isKeywordT_loc hrec hkw h2.1 h2.2
          · exact .lift fun a e => .nil
        · obtain ⟨kw, c3⟩ := x
          simp only
          split <;> exact .lift fun a e => by simpa using h1.append hx
    · rcases List.mem_cons.1 he with rfl | he
      · exact ⟨hp, by simp only; omega⟩
      · exact ht e he

end

theorem parseTraced_loc {env : Env} {R : Ptr → Prop} {input : List Rune} {rend : Option Nat} (C : Closed env R) :
    ∀ (n : Nat), LocRec env R input rend (parseTraced env n)
  | 0 => fun p c _ _ _ _ e => by cases e
  | n + 1 => by
    intro p c hp h
    have hpost := Traced.Holds.ofSpec (parse_spec C (Interp.trivial env R input) (env.bounds R) (n + 1) p c hp h)
    refine Traced.Holds.mono (Traced.Holds.and (Q := fun _ tr => Located R input.length tr) hpost ?_) fun c' tr hx =>
      ⟨hx.2, hx.1.inv, hx.1.frame.toks.length_le, fun hm => (hx.1.mtch hm).1⟩
    have ih := parseTraced_loc (rend := rend) (input := input) C n
    unfold parseTraced
    cases hd : env.defs[p]? with
    | none => exact .lift fun a e => by cases e
    | some d =>
      have hch : ∀ q ∈ d.kind.children, R q := fun q hq => C.child hp hd hq
      cases hk : d.kind with
      | char => simp only [hk]; exact .lift fun a e => .nil
      | choice os => simp only [hk]; exact choiceParseT_loc ih (fun k hk => C.keyword hk) _ hp d (fun o ho => hch o (by rw [hk]; exact ho)) h
      | seq is rs ac => simp only [hk]; exact seqParseT_loc ih (fun k hk => C.keyword hk) _ hp d (fun o ho => hch o (by rw [hk]; exact ho)) h

/-- The number of the attempts of choices. -/
theorem parseTraced_choices {env : Env} {root : Ptr} {input : List Rune} {rend : Option Nat} (C : Closed env (Reach env root)) {n : Nat}
    {c : Ctx} {tr : List Event} (hp : parseTraced env n root (newContext input rend) = .ok (c, tr)) (Q : Event → Bool)
    (hQ : ∀ e ∈ tr, Q e = true → ∃ d os, env.defs[e.1]? = some d ∧ d.kind = .choice os) :
    (tr.filter Q).length ≤ (input.length + 1) * env.defs.length := by
  have hloc := (parseTraced_loc C n root _ .root .init c tr hp).1
  rw [← length_allPairs, ← List.length_map (f := fun e : Event => (e.2, e.1))]
  refine length_le_of_nodup (l := (tr.filter Q).map fun e => (e.2, e.1)) ?_ ?_
  · refine List.pairwise_map.2 (List.Pairwise.imp ?_ (nodup_of_count (l := tr.filter Q) ?_))
    · intro a b hne e
      simp only [Prod.mk.injEq] at e
      exact hne (Prod.ext e.2 e.1)
    · intro a ha
      obtain ⟨ha, hq⟩ := List.mem_filter.1 ha
      obtain ⟨d, os, hd, hk⟩ := hQ a ha hq
      exact Nat.le_trans (List.Sublist.count_le _ List.filter_sublist) (parseTraced_once hd hk a.2 n root _ c tr hp).once
  · intro x hx
    obtain ⟨e, he, rfl⟩ := List.mem_map.1 hx
    obtain ⟨he, -⟩ := List.mem_filter.1 he
    obtain ⟨h1, h2⟩ := hloc e he
    obtain ⟨d, hd⟩ := C.def_ h1
    exact mem_allPairs.2 ⟨h2, (List.getElem?_eq_some_iff.1 hd).1⟩

end Treerack
