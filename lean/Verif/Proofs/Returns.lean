import Verif.Proofs.WsInit
import Verif.Proofs.Generate
import Verif.Proofs.Outcome
import Verif.Proofs.GoFile

/-
Init and Generate do not panic after accepted definitions, whatever the names are.
-/

namespace Treerack
open Spec Whitespace

variable {cs : List Call} {s s' : Syntax}

/-- Applying the whitespace finds the root, whatever the names are. -/
theorem apply_root (hs : SInv s) (hnc : s.RootNotChar) {root : Ptr} {d0 : Def} (hroot : s.root = some root) (hd0 : s.heap[root]? = some d0)
    (hc : d0.commitType.incompatible = false) : apply s.preHeap s.registry.definitions ≠ .panic := by
  intro hx
  have hlen : s.preHeap.length = s.heap.length := foldl_update_length ..
  have hspec := apply_spec (h := s.preHeap) hs.nodup (fun p hp => by rw [hlen]; exact hs.mem_lt hp)
  rw [hx] at hspec
  have hspec : ∀ q ∈ _, _ := hspec
  -- the replacement of the root has the flag
  have hrm := hs.rootIn root hroot
  have hk0 := hnc root d0 hroot hd0
  have hflag := (hs.rootFlag root d0 hrm hd0 hk0).2 hroot
  have hpre0 : s.preHeap[root]? = some d0.initRanges := by
    rw [hs.preHeap_get, if_pos hrm, hd0]; rfl
  have hct0 : d0.initRanges.commitType = d0.commit := by
    rw [initRanges_commitType, commitType_notChar hk0]
  have hws0 : d0.commit.whitespace = false := by
    rw [commitType_notChar hk0] at hc
    cases hw : d0.commit.whitespace
    · rfl
    · simp [Commit.incompatible, hw, hflag] at hc
  have hnon : root ∈ nonWsPart s.preHeap s.registry.definitions := by
    unfold nonWsPart
    rw [List.mem_filter]
    refine ⟨hrm, ?_⟩
    simp [Syntax.commitOf, hpre0, hct0, hws0]
  have hsl : (splitDefs s.preHeap s.registry.definitions).2.2.length = s.preHeap.length := splitHeap_length _ _
  have happ := applyToDefs_spec (nonWsPart s.preHeap s.registry.definitions)
    ((splitDefs s.preHeap s.registry.definitions).2.2 ++
      [mergeDefs (splitDefs s.preHeap s.registry.definitions).2.2 (wsPart s.preHeap s.registry.definitions)]) (by
      intro p hp
      rw [List.length_append, hsl, hlen]
      exact Nat.lt_of_lt_of_le (hs.mem_lt (List.mem_filter.1 hp).1) (Nat.le_add_right _ _))
  have hget : ((splitDefs s.preHeap s.registry.definitions).2.2 ++
      [mergeDefs (splitDefs s.preHeap s.registry.definitions).2.2 (wsPart s.preHeap s.registry.definitions)])[root]? =
      some d0.initRanges := by
    rw [List.getElem?_append_left (by rw [hsl, hlen]; exact hs.mem_lt hrm)]
    have := splitHeap_get s.registry.definitions s.preHeap hs.nodup root
    rw [show (splitDefs s.preHeap s.registry.definitions).2.2[root]? = _ from this, if_neg, hpre0]
    rintro ⟨-, h2⟩
    simp [Syntax.commitOf, hpre0, hct0, hws0] at h2
  have hin : some d0.initRanges.wsRepl ∈ ((nonWsPart s.preHeap s.registry.definitions).flatMap
      (wsBlock ((splitDefs s.preHeap s.registry.definitions).2.2 ++
      [mergeDefs (splitDefs s.preHeap s.registry.definitions).2.2 (wsPart s.preHeap s.registry.definitions)]))).map some := by
    refine List.mem_map.2 ⟨_, List.mem_flatMap.2 ⟨root, hnon, ?_⟩, rfl⟩
    unfold wsBlock
    rw [hget]
    simp
  rw [← happ.get] at hin
  obtain ⟨q, h1, h2⟩ := List.mem_map.1 hin
  have := hspec q h1
  unfold Syntax.commitOf at this
  rw [h2] at this
  simp only [wsRepl_commitType, hct0, hflag] at this
  cases this

theorem Init_made (h : Made cs s) : ∃ s' e, s.Init = .ok (s', e) := by
  have C := made_called h
  have hs := C.built.inv
  rw [Syntax.Init_eq, if_neg (by simp [hs.initFailed]), if_neg (by simp [hs.initialized])]
  cases hroot : s.root with
  | none => exact ⟨_, _, rfl⟩
  | some root =>
    obtain ⟨d, hd⟩ : ∃ d, s.heap[root]? = some d := ⟨_, List.getElem?_eq_getElem (hs.root_lt root hroot)⟩
    simp only [hd]
    split
    · exact ⟨_, _, rfl⟩
    · rename_i hc
      have hw := prepare_weak hs.weak hroot
      cases hp : s.prepare root with
      | oof => rw [hp] at hw; exact hw.elim
      | panic =>
        exfalso
        by_cases hws : s.HasWhitespace
        · unfold Syntax.prepare at hp
          simp only at hp
          rw [show s.registry.definitions.foldl (fun h p => h.update p Def.initRanges) s.heap = s.preHeap from rfl,
            if_pos ((hasWhitespace_iff hs).2 hws)] at hp
          cases hx : apply s.preHeap s.registry.definitions with
          | oof => rw [hx] at hp; cases hp
          | ok x => rw [hx] at hp; cases hp
          | panic => exact apply_root hs C.rootNotChar hroot hd (by simpa using hc) hx
        · rw [prepare_noWs hs hws] at hp
          cases hp
      | ok x =>
        rw [hp] at hw
        have hf := finishInit_spec hw.1
        simp only [Res.bind_ok]
        cases hx : x.1.finishInit x.2 with
        | panic => rw [hx] at hf; exact hf.elim
        | oof => rw [hx] at hf; exact hf.elim
        | ok y => exact ⟨y.1, y.2, rfl⟩

section
variable {env : Env} {R : Ptr → Prop} {key : PDef → Name} {lit : PDef → Lit}

theorem nodeIDs_ok (hC : Closed env R) : ∀ ps : List Ptr, (∀ p ∈ ps, R p) → ∃ ids, nodeIDs env ps = .ok ids
  | [], _ => ⟨[], rfl⟩
  | p :: ps, h => by
    obtain ⟨d, hd⟩ := hC.def_ (h p (by simp))
    obtain ⟨ids, hi⟩ := nodeIDs_ok hC ps fun q hq => h q (by simp [hq])
    exact ⟨d.id :: ids, by simp [nodeIDs, hd, hi]⟩

theorem generateAll_returns {rec : Ptr → List Name → Res (List Stmt × List Name)} {n : Nat}
    (hrec : ∀ p done, R p → unseen env key done < n → ∃ x, rec p done = .ok x ∧ ∀ y ∈ done, y ∈ x.2) :
    ∀ (ps : List Ptr) (done : List Name), (∀ p ∈ ps, R p) → unseen env key done < n →
      ∃ x, generateAll rec ps done = .ok x ∧ ∀ y ∈ done, y ∈ x.2
  | [], done, _, _ => ⟨_, rfl, fun _ h => h⟩
  | p :: ps, done, h, hn => by
    obtain ⟨⟨ss, d1⟩, h1, h2⟩ := hrec p done (h p (by simp)) hn
    obtain ⟨⟨ss', d2⟩, h3, h4⟩ := generateAll_returns hrec ps d1 (fun q hq => h q (by simp [hq])) (Nat.lt_of_le_of_lt (unseen_mono h2) hn)
    exact ⟨(ss ++ ss', d2), by simp [generateAll, h1, h3], fun y hy => h4 y (h2 y hy)⟩

theorem generate_returns (hC : Closed env R) : ∀ (n : Nat) (p : Ptr) (done : List Name), R p → unseen env key done < n →
    ∃ x, generate env key lit n p done = .ok x ∧ ∀ y ∈ done, y ∈ x.2
  | 0, _, _, _, h => absurd h (Nat.not_lt_zero _)
  | n + 1, p, done, hp, hn => by
    obtain ⟨d, hd⟩ := hC.def_ hp
    have go : ∀ (field : Field) (children : List Ptr), (∀ q ∈ children, R q) → d.kind.isChar = false →
        ∃ x, (if done.contains (key d) then .ok ([], done)
        else
          (generateAll (generate env key lit n) children (key d :: done)).bind fun (ss, done) =>
            if children.isEmpty then .ok (.declare d.id (lit d) :: ss, done)
            else
              (nodeIDs env children).bind fun ids =>
                .ok (.declare d.id (lit d) :: ss ++ [.assign d.id field ids], done)) = Res.ok x ∧ ∀ y ∈ done, y ∈ x.2 := by
      intro field children hc hk
      split
      · exact ⟨_, rfl, fun _ h => h⟩
      · rename_i hf
        have hlt := unseen_lt (key := key) hd hk (done := done) (by simpa using hf)
        obtain ⟨⟨ss, d1⟩, h1, h2⟩ := generateAll_returns (generate_returns hC n) children (key d :: done) hc (by omega)
        obtain ⟨ids, hi⟩ := nodeIDs_ok hC children hc
        rw [h1]
        simp only [Res.bind_ok, hi]
        split
        · exact ⟨_, rfl, fun y hy => h2 y (by simp [hy])⟩
        · exact ⟨_, rfl, fun y hy => h2 y (by simp [hy])⟩
    unfold generate
    rw [hd]
    simp only
    cases hk : d.kind with
    | char => exact ⟨_, rfl, fun _ h => h⟩
    | choice os => exact go .options os (fun q hq => hC.child hp hd (by rw [hk]; exact hq)) (by rw [hk]; rfl)
    | seq is rs ac => exact go .items is (fun q hq => hC.child hp hd (by rw [hk]; exact hq)) (by rw [hk]; rfl)

end

theorem generateProgram_returns {env : Env} {root : Ptr} (hC : Closed env (Reach env root)) : ∃ prog, generateProgram env root = .ok prog := by
  have hb : ∀ (key : PDef → Name) done, unseen env key done < env.defs.length + 1 := fun key done =>
    Nat.lt_succ_of_le List.countP_le_length
  obtain ⟨⟨ps, d1⟩, h1, -⟩ := generateAll_returns (R := Reach env root) (generate_returns (key := PDef.pname) (lit := PDef.parserLit) hC _)
    (env.keywords ++ [root]) [] (by
      intro p hp
      rcases List.mem_append.1 hp with h | h
      · exact .keyword h
      · rw [List.mem_singleton.1 h]; exact .root) (hb _ _)
  obtain ⟨⟨bs, d2⟩, h2, -⟩ := generate_returns (key := PDef.name) (lit := PDef.builderLit) hC _ root [] .root (hb _ _)
  obtain ⟨ks, h3⟩ := nodeIDs_ok hC env.keywords fun k hk => .keyword hk
  obtain ⟨rs, h4⟩ := nodeIDs_ok hC [root] fun k hk => by rw [List.mem_singleton.1 hk]; exact .root
  exact ⟨_, by unfold generateProgram; simp only [h1, h2, h3, h4, Res.bind_ok]; rfl⟩

end Treerack
