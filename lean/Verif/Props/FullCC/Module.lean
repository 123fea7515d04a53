import Verif.Props.FullCC.Python
import Verif.Props.Glue
import Verif.Spec.FullCCRun

/-!
# Properties of the generated full-CC module

C68: what `compute_m_n_amplitude` adds up.  C69: the optimised functions and their paths.
-/

namespace TF.CC

open TF.Py TF.Spec TF.Spec.CCRun

/-! ## Names -/

/-- the names of all functions but the last -/
def nm (pre : Bool) (k : Nat × Nat) (suf : String) : String :=
  (if pre then "add_" else "compute_") ++ ("m" ++ toString k.1 ++ "_n" ++ toString k.2) ++ suf

theorem num_us (n : Nat) : '_' ∉ (toString n).toList := by
  intro h
  have h' : '_' ∈ n.repr.toList := h
  exact absurd (TF.Glue.digit_of_natRepr h') (by decide)

theorem toString_inj {a b : Nat} (h : (toString a).toList = (toString b).toList) : a = b :=
  TF.Glue.natRepr_inj (String.toList_injective h)

/-- a suffix after the specifier -/
def Suf (s : String) : Prop := s.toList.head? = some '_'

instance (s : String) : Decidable (Suf s) := inferInstanceAs (Decidable (_ = _))

theorem nm_inj {p p' : Bool} {k k' : Nat × Nat} {s s' : String} (hs : Suf s) (hs' : Suf s') (h : nm p k s = nm p' k' s') :
    p = p' ∧ k = k' ∧ s = s' := by
  have e := congrArg String.toList h
  unfold nm at e
  simp only [String.toList_append, List.append_assoc] at e
  have hp : p = p' := by
    cases p <;> cases p' <;> simp at e ⊢
  subst hp
  obtain ⟨x, hx⟩ : ∃ x, s.toList = '_' :: x := by
    unfold Suf at hs
    cases hsl : s.toList with
    | nil => rw [hsl] at hs; simp at hs
    | cons a l => rw [hsl] at hs; simp at hs; exact ⟨l, by rw [hs]⟩
  obtain ⟨x', hx'⟩ : ∃ x, s'.toList = '_' :: x := by
    unfold Suf at hs'
    cases hsl : s'.toList with
    | nil => rw [hsl] at hs'; simp at hs'
    | cons a l => rw [hsl] at hs'; simp at hs'; exact ⟨l, by rw [hs']⟩
  rw [hx, hx'] at e
  have e1 := List.append_cancel_left (List.append_cancel_left e)
  have u : ("_n" : String).toList = '_' :: ['n'] := rfl
  rw [u] at e1
  simp only [List.cons_append, List.nil_append] at e1
  obtain ⟨e2, e3⟩ := TF.Glue.split_delim (num_us _) (num_us _) e1
  injection e3 with _ e3
  obtain ⟨e4, e5⟩ := TF.Glue.split_delim (num_us _) (num_us _) e3
  refine ⟨rfl, Prod.ext (toString_inj e2) (toString_inj e4), String.toList_injective ?_⟩
  rw [hx, hx', e5]

theorem nm_ne_all {p : Bool} {k : Nat × Nat} {s : String} : nm p k s ≠ "compute_all_optimized_paths" := by
  intro h
  have e := congrArg String.toList h
  unfold nm at e
  simp only [String.toList_append, List.append_assoc] at e
  cases p <;> simp at e

/-- The definitions of one projection operator. -/
def defsOf (o : Op) (d0 d1 d2 : Program Einsum) (o0 o1 o2 : Program OptCall) (p0 p1 p2 : Program Path) : List (String × Body) :=
  [(nm true (o.m, o.n) "_fully_connected_terms", .add d0), (nm true (o.m, o.n) "_linked_disconnected_terms", .add d1),
   (nm true (o.m, o.n) "_unlinked_disconnected_terms", .add d2),
   (nm false (o.m, o.n) "_amplitude", .amplitude o.rank [nm true (o.m, o.n) "_fully_connected_terms",
     nm true (o.m, o.n) "_linked_disconnected_terms", nm true (o.m, o.n) "_unlinked_disconnected_terms"]),
   (nm true (o.m, o.n) "_fully_connected_terms_optimized", .addOpt o0), (nm true (o.m, o.n) "_linked_disconnected_terms_optimized", .addOpt o1),
   (nm true (o.m, o.n) "_unlinked_disconnected_terms_optimized", .addOpt o2),
   (nm false (o.m, o.n) "_amplitude_optimized", .amplitudeOpt o.rank (o.m, o.n) [nm true (o.m, o.n) "_fully_connected_terms_optimized",
     nm true (o.m, o.n) "_linked_disconnected_terms_optimized", nm true (o.m, o.n) "_unlinked_disconnected_terms_optimized"]),
   (nm false (o.m, o.n) "_fully_connected_optimized_paths", .typePaths p0), (nm false (o.m, o.n) "_linked_disconnected_optimized_paths", .typePaths p1),
   (nm false (o.m, o.n) "_unlinked_disconnected_optimized_paths", .typePaths p2),
   (nm false (o.m, o.n) "_optimized_paths", .opPaths [nm false (o.m, o.n) "_fully_connected_optimized_paths",
     nm false (o.m, o.n) "_linked_disconnected_optimized_paths", nm false (o.m, o.n) "_unlinked_disconnected_optimized_paths"] (o.m, o.n))]

theorem nm_add (o : Op) (s : String) : "add_" ++ specifier o ++ s = nm true (o.m, o.n) s := rfl
theorem nm_compute (o : Op) (s : String) : "compute_" ++ specifier o ++ s = nm false (o.m, o.n) s := rfl

theorem addName_eq (o : Op) (ty : String) : addName o ty = nm true (o.m, o.n) ("_" ++ ty ++ "_terms") := by
  unfold addName
  rw [← nm_add]
  simp only [String.append_assoc]
theorem addOptName_eq (o : Op) (ty : String) : addOptName o ty = nm true (o.m, o.n) ("_" ++ ty ++ "_terms_optimized") := by
  unfold addOptName
  rw [← nm_add]
  simp only [String.append_assoc]
theorem typePathsName_eq (o : Op) (ty : String) : typePathsName o ty = nm false (o.m, o.n) ("_" ++ ty ++ "_optimized_paths") := by
  unfold typePathsName
  rw [← nm_compute]
  simp only [String.append_assoc]

/-- The code of a projection operator has three programs of each kind. -/
structure Three (c : OmegaCode) (d0 d1 d2 : Program Einsum) (o0 o1 o2 : Program OptCall) (p0 p1 p2 : Program Path) : Prop where
  d : c.default = [d0, d1, d2]
  o : c.opt = [o0, o1, o2]
  p : c.paths = [p0, p1, p2]

theorem mem_moduleDefs {F : List OmegaCode} (h3 : ∀ c ∈ F, ∃ d0 d1 d2 o0 o1 o2 p0 p1 p2, Three c d0 d1 d2 o0 o1 o2 p0 p1 p2) (x : String × Body) :
    x ∈ moduleDefs F ↔ (∃ c ∈ F, ∃ d0 d1 d2 o0 o1 o2 p0 p1 p2, Three c d0 d1 d2 o0 o1 o2 p0 p1 p2 ∧
      x ∈ defsOf c.omega d0 d1 d2 o0 o1 o2 p0 p1 p2) ∨ x = allPathsDef (F.map OmegaCode.omega) := by
  have key : ∀ c d0 d1 d2 o0 o1 o2 p0 p1 p2, Three c d0 d1 d2 o0 o1 o2 p0 p1 p2 →
      (x ∈ defsOf c.omega d0 d1 d2 o0 o1 o2 p0 p1 p2 ↔ x ∈ addDefs c ∨ x = amplitudeDef c.omega ∨ x ∈ addOptDefs c ∨
        x = amplitudeOptDef c.omega ∨ x ∈ typePathsDefs c ∨ x = opPathsDef c.omega) := by
    intro c d0 d1 d2 o0 o1 o2 p0 p1 p2 h
    have e1 : addDefs c = [(nm true (c.omega.m, c.omega.n) "_fully_connected_terms", .add d0),
        (nm true (c.omega.m, c.omega.n) "_linked_disconnected_terms", .add d1), (nm true (c.omega.m, c.omega.n) "_unlinked_disconnected_terms", .add d2)] := by
      simp only [addDefs, h.d, termTypes, List.zipWith_cons_cons, List.zipWith_nil_left, addName_eq]
      rfl
    have e2 : addOptDefs c = [(nm true (c.omega.m, c.omega.n) "_fully_connected_terms_optimized", .addOpt o0),
        (nm true (c.omega.m, c.omega.n) "_linked_disconnected_terms_optimized", .addOpt o1),
        (nm true (c.omega.m, c.omega.n) "_unlinked_disconnected_terms_optimized", .addOpt o2)] := by
      simp only [addOptDefs, h.o, termTypes, List.zipWith_cons_cons, List.zipWith_nil_left, addOptName_eq]
      rfl
    have e3 : typePathsDefs c = [(nm false (c.omega.m, c.omega.n) "_fully_connected_optimized_paths", .typePaths p0),
        (nm false (c.omega.m, c.omega.n) "_linked_disconnected_optimized_paths", .typePaths p1),
        (nm false (c.omega.m, c.omega.n) "_unlinked_disconnected_optimized_paths", .typePaths p2)] := by
      simp only [typePathsDefs, h.p, termTypes, List.zipWith_cons_cons, List.zipWith_nil_left, typePathsName_eq]
      rfl
    rw [e1, e2, e3]
    simp only [defsOf, amplitudeDef, amplitudeOptDef, opPathsDef, nm_add, nm_compute, List.mem_cons, List.not_mem_nil, or_false, or_assoc]
  unfold moduleDefs
  simp only [List.mem_append, List.mem_flatMap, List.mem_map, List.mem_singleton]
  constructor
  · rintro ((((((⟨c, hc, h⟩ | ⟨c, hc, h⟩) | ⟨c, hc, h⟩) | ⟨c, hc, h⟩) | ⟨c, hc, h⟩) | ⟨c, hc, h⟩) | h)
    all_goals first
      | exact .inr h
      | (obtain ⟨d0, d1, d2, o0, o1, o2, p0, p1, p2, t⟩ := h3 c hc
         refine .inl ⟨c, hc, d0, d1, d2, o0, o1, o2, p0, p1, p2, t, (key c _ _ _ _ _ _ _ _ _ t).2 ?_⟩
         first | exact .inl h | exact .inr (.inl h.symm) | exact .inr (.inr (.inl h)) | exact .inr (.inr (.inr (.inl h.symm))) |
           exact .inr (.inr (.inr (.inr (.inl h)))) | exact .inr (.inr (.inr (.inr (.inr h.symm)))))
  · rintro (⟨c, hc, d0, d1, d2, o0, o1, o2, p0, p1, p2, t, h⟩ | h)
    · rcases (key c _ _ _ _ _ _ _ _ _ t).1 h with h | h | h | h | h | h
      · exact .inl (.inl (.inl (.inl (.inl (.inl ⟨c, hc, h⟩)))))
      · exact .inl (.inl (.inl (.inl (.inl (.inr ⟨c, hc, h.symm⟩)))))
      · exact .inl (.inl (.inl (.inl (.inr ⟨c, hc, h⟩))))
      · exact .inl (.inl (.inl (.inr ⟨c, hc, h.symm⟩)))
      · exact .inl (.inl (.inr ⟨c, hc, h⟩))
      · exact .inl (.inr ⟨c, hc, h.symm⟩)
    · exact .inr h

theorem lookup_of {M : List (String × Body)} {f : String} {b : Body} (hm : (f, b) ∈ M) (hu : ∀ b', (f, b') ∈ M → b' = b) : lookup M f = some b := by
  unfold lookup
  cases h : M.reverse.find? fun d => d.1 == f with
  | none =>
    rw [List.find?_eq_none] at h
    exact absurd (h (f, b) (by simpa using hm)) (by simp)
  | some d =>
    have h1 := List.find?_some h
    have h2 := List.mem_of_find?_eq_some h
    obtain ⟨g, b'⟩ := d
    have : g = f := by simpa using h1
    subst this
    rw [Option.map_some, hu b' (by simpa using h2)]

/-- Every name of the module means the function it was written for. -/
theorem lookup_defs {F : List OmegaCode} (h3 : ∀ c ∈ F, ∃ d0 d1 d2 o0 o1 o2 p0 p1 p2, Three c d0 d1 d2 o0 o1 o2 p0 p1 p2)
    (hn : ∀ c ∈ F, ∀ c' ∈ F, c.omega.m = c'.omega.m → c.omega.n = c'.omega.n → c = c') {c : OmegaCode} (hc : c ∈ F)
    {d0 d1 d2 : Program Einsum} {o0 o1 o2 : Program OptCall} {p0 p1 p2 : Program Path} (t : Three c d0 d1 d2 o0 o1 o2 p0 p1 p2) {f : String} {b : Body}
    (hm : (f, b) ∈ defsOf c.omega d0 d1 d2 o0 o1 o2 p0 p1 p2) : lookup (moduleDefs F) f = some b := by
  refine lookup_of ((mem_moduleDefs h3 _).2 (.inl ⟨c, hc, _, _, _, _, _, _, _, _, _, t, hm⟩)) ?_
  intro b' hb'
  have hf : ∃ pre suf, f = nm pre (c.omega.m, c.omega.n) suf ∧ Suf suf := by
    simp only [defsOf, List.mem_cons, List.not_mem_nil, or_false, Prod.mk.injEq] at hm
    rcases hm with h | h | h | h | h | h | h | h | h | h | h | h <;> exact ⟨_, _, h.1, by decide⟩
  rcases (mem_moduleDefs h3 _).1 hb' with ⟨c', hc', d0', d1', d2', o0', o1', o2', p0', p1', p2', t', h'⟩ | h'
  · have hcc : c = c' := by
      obtain ⟨pre, suf, hf, hs⟩ := hf
      simp only [defsOf, List.mem_cons, List.not_mem_nil, or_false, Prod.mk.injEq] at h'
      refine hn c hc c' hc' ?_ ?_ <;>
      · rcases h' with h | h | h | h | h | h | h | h | h | h | h | h <;>
        · have := (nm_inj hs (by decide) (hf.symm.trans h.1)).2.1
          simp only [Prod.mk.injEq] at this
          first | exact this.1 | exact this.2
    subst hcc
    have a1 := t.d.symm.trans t'.d
    have a2 := t.o.symm.trans t'.o
    have a3 := t.p.symm.trans t'.p
    simp only [List.cons.injEq, and_true] at a1 a2 a3
    obtain ⟨rfl, rfl, rfl⟩ := a1
    obtain ⟨rfl, rfl, rfl⟩ := a2
    obtain ⟨rfl, rfl, rfl⟩ := a3
    have hnd : ((defsOf c.omega d0 d1 d2 o0 o1 o2 p0 p1 p2).map Prod.fst).Nodup := by
      have : (defsOf c.omega d0 d1 d2 o0 o1 o2 p0 p1 p2).map Prod.fst =
          ([(true, "_fully_connected_terms"), (true, "_linked_disconnected_terms"), (true, "_unlinked_disconnected_terms"), (false, "_amplitude"),
            (true, "_fully_connected_terms_optimized"), (true, "_linked_disconnected_terms_optimized"), (true, "_unlinked_disconnected_terms_optimized"),
            (false, "_amplitude_optimized"), (false, "_fully_connected_optimized_paths"), (false, "_linked_disconnected_optimized_paths"),
            (false, "_unlinked_disconnected_optimized_paths"), (false, "_optimized_paths")] : List (Bool × String)).map
              fun x => nm x.1 (c.omega.m, c.omega.n) x.2 := rfl
      rw [this]
      refine List.Nodup.map_on ?_ (by decide)
      intro x hx y hy hxy
      have hall : ∀ x ∈ ([(true, "_fully_connected_terms"), (true, "_linked_disconnected_terms"), (true, "_unlinked_disconnected_terms"), (false, "_amplitude"),
            (true, "_fully_connected_terms_optimized"), (true, "_linked_disconnected_terms_optimized"), (true, "_unlinked_disconnected_terms_optimized"),
            (false, "_amplitude_optimized"), (false, "_fully_connected_optimized_paths"), (false, "_linked_disconnected_optimized_paths"),
            (false, "_unlinked_disconnected_optimized_paths"), (false, "_optimized_paths")] : List (Bool × String)), Suf x.2 := by decide
      obtain ⟨q1, _, q2⟩ := nm_inj (hall x hx) (hall y hy) hxy
      exact Prod.ext q1 q2
    have := List.inj_on_of_nodup_map hnd hm h' rfl
    injection this with _ this
    exact this.symm
  · obtain ⟨pre, suf, hf, _⟩ := hf
    injection h' with h' _
    exact absurd (hf.symm.trans h') nm_ne_all

theorem three_of {F : List OmegaCode} {so : SetOrder Nat} {sol : SetOrder (List T)} {hMax cc smax omegaMax : Nat} (hcc : 1 ≤ cc)
    (hF : pythonFile so sol hMax cc smax omegaMax = .ok F) :
    (∀ c ∈ F, ∃ d0 d1 d2 o0 o1 o2 p0 p1 p2, Three c d0 d1 d2 o0 o1 o2 p0 p1 p2) ∧
    (∀ c ∈ F, ∀ c' ∈ F, c.omega.m = c'.omega.m → c.omega.n = c'.omega.n → c = c') ∧
    F.map OmegaCode.omega = omegaOps cc omegaMax := by
  have hcont := pythonFile_contents so sol hMax cc smax omegaMax hcc F hF
  have h3 : F.map OmegaCode.omega = omegaOps cc omegaMax := by
    clear hF
    generalize omegaOps cc omegaMax = O at hcont ⊢
    induction hcont with
    | nil => rfl
    | cons h _ ih => rw [List.map_cons, ih, h.1]
  refine ⟨?_, ?_, h3⟩
  · intro c hc
    obtain ⟨omega, ho, rfl, L, hL, h1, h2, h4⟩ := forall₂_mem_right hcont c hc
    obtain ⟨d, o, p⟩ : (∃ d0 d1 d2, c.default = [d0, d1, d2]) ∧ (∃ d0 d1 d2, c.opt = [d0, d1, d2]) ∧ ∃ d0 d1 d2, c.paths = [d0, d1, d2] := by
      have l1 := h1.length_eq
      have l2 := h2.length_eq
      have l4 := h4.length_eq
      have : (termGroups L).length = 3 := rfl
      rw [this] at l1 l2 l4
      exact ⟨List.length_eq_three.1 l1.symm, List.length_eq_three.1 l2.symm, List.length_eq_three.1 l4.symm⟩
    obtain ⟨d0, d1, d2, hd⟩ := d
    obtain ⟨o0, o1, o2, ho⟩ := o
    obtain ⟨p0, p1, p2, hp⟩ := p
    exact ⟨_, _, _, _, _, _, _, _, _, hd, ho, hp⟩
  · intro c hc c' hc' e1 e2
    have hnd : (F.map fun c => (c.omega.m, c.omega.n)).Nodup := by
      have := omegaOps_nodup cc omegaMax
      rw [← h3, List.map_map] at this
      exact this
    exact List.inj_on_of_nodup_map hnd hc hc' (by simp [e1, e2])

/-! ## C68: what `compute_m_n_amplitude` adds up -/

/-- the additions of one default program -/
def addsOf (fl : Flags) (p : Program Einsum) : List (Added Einsum) := p.adds.map .h ++ (run fl p).map fun g => .sum g.1 g.2

theorem callAdd_eq {M : List (String × Body)} {f : String} {p : Program Einsum} (h : lookup M f = some (.add p)) (env : Caller) :
    callAdd M env f = if env.ground then (if keysOk env (fun e : Einsum => (e.h, e.ts)) p then .ok (addsOf env.fl p) else .error .key)
      else .error .notImplemented := by
  unfold callAdd
  rw [h]
  rfl

theorem callAdds_three {M : List (String × Body)} {f0 f1 f2 : String} {p0 p1 p2 : Program Einsum} (h0 : lookup M f0 = some (.add p0))
    (h1 : lookup M f1 = some (.add p1)) (h2 : lookup M f2 = some (.add p2)) (env : Caller) :
    callAdds M env [f0, f1, f2] = if env.ground then
      (if (keysOk env (fun e : Einsum => (e.h, e.ts)) p0 && keysOk env (fun e : Einsum => (e.h, e.ts)) p1 && keysOk env (fun e : Einsum => (e.h, e.ts)) p2)
        then .ok (addsOf env.fl p0 ++ (addsOf env.fl p1 ++ addsOf env.fl p2)) else .error .key) else .error .notImplemented := by
  simp only [callAdds, callAdd_eq h0, callAdd_eq h1, callAdd_eq h2]
  cases env.ground <;> cases keysOk env (fun e : Einsum => (e.h, e.ts)) p0 <;> cases keysOk env (fun e : Einsum => (e.h, e.ts)) p1 <;>
    cases keysOk env (fun e : Einsum => (e.h, e.ts)) p2 <;> simp

/-- the name of the amplitude function of a projection operator -/
theorem amplitude_name (o : Op) : "compute_m" ++ toString o.m ++ "_n" ++ toString o.n ++ "_amplitude" = nm false (o.m, o.n) "_amplitude" := by
  apply String.toList_injective
  simp [nm]

/-- What the functions written for one projection operator are. -/
theorem omega_code {F : List OmegaCode} {so : SetOrder Nat} {sol : SetOrder (List T)} {hMax cc smax omegaMax : Nat} (hcc : 1 ≤ cc)
    (hF : pythonFile so sol hMax cc smax omegaMax = .ok F) {c : OmegaCode} (hc : c ∈ F) :
    c.omega ∈ omegaOps cc omegaMax ∧ ∃ L, termsFor sol true true hMax cc smax c.omega = .ok L ∧
    ∃ d0 d1 d2 o0 o1 o2 p0 p1 p2, Three c d0 d1 d2 o0 o1 o2 p0 p1 p2 ∧
      (writeDefault so hMax cc (L.filter fun t => decide (FullyConnected t)) = .ok d0 ∧
        writeDefault so hMax cc (L.filter fun t => decide (Linked t)) = .ok d1 ∧ writeDefault so hMax cc (L.filter fun t => decide (Unlinked t)) = .ok d2) ∧
      (writeOpt so hMax cc (L.filter fun t => decide (FullyConnected t)) = .ok o0 ∧
        writeOpt so hMax cc (L.filter fun t => decide (Linked t)) = .ok o1 ∧ writeOpt so hMax cc (L.filter fun t => decide (Unlinked t)) = .ok o2) ∧
      (writePaths so hMax cc (L.filter fun t => decide (FullyConnected t)) = .ok p0 ∧
        writePaths so hMax cc (L.filter fun t => decide (Linked t)) = .ok p1 ∧ writePaths so hMax cc (L.filter fun t => decide (Unlinked t)) = .ok p2) := by
  obtain ⟨omega, ho, rfl, L, hL, h1, h2, h4⟩ := forall₂_mem_right (pythonFile_contents so sol hMax cc smax omegaMax hcc F hF) c hc
  refine ⟨ho, L, hL, ?_⟩
  unfold termGroups at h1 h2 h4
  generalize e1 : c.default = D at h1
  generalize e2 : c.opt = O at h2
  generalize e3 : c.paths = P at h4
  obtain _ | ⟨a0, _ | ⟨a1, _ | ⟨a2, _ | _⟩⟩⟩ := h1
  obtain _ | ⟨b0, _ | ⟨b1, _ | ⟨b2, _ | _⟩⟩⟩ := h2
  obtain _ | ⟨c0, _ | ⟨c1, _ | ⟨c2, _ | _⟩⟩⟩ := h4
  exact ⟨_, _, _, _, _, _, _, _, _, ⟨e1, e2, e3⟩, ⟨a0, a1, a2⟩, ⟨b0, b1, b2⟩, c0, c1, c2⟩

/-- `h_args` has every rank up to `hMax`, `t_args` the ground-state amplitudes up to `cc`. -/
def FullArgs (hMax cc : Nat) (env : Caller) : Prop :=
  (∀ m n, m + n ≤ hMax → env.h (m, n) = true) ∧ ∀ m, 1 ≤ m → m ≤ cc → env.t (m, 0) = true

theorem sum_group (so : SetOrder Nat) (sol : SetOrder (List T)) (hMax cc smax omegaMax : Nat) (hcc : 1 ≤ cc) (hH : hMax ≤ 6) (hS : smax ≤ 6)
    (hP : omegaMax ≤ 6) (omega : Op) (ho : omega ∈ omegaOps cc omegaMax) (L : List Term) (hL : termsFor sol true true hMax cc smax omega = .ok L)
    (l : List Term) (hl : ∀ t ∈ l, t ∈ L) (p : Program Einsum) (hp : writeDefault so hMax cc l = .ok p) (g : Term → List Einsum)
    (hg : ∀ t ∈ L, onlyH t.ts = false → einsums t.h t.ts = .ok (g t)) (env : Caller) :
    (FullArgs hMax cc env → keysOk env (fun e : Einsum => (e.h, e.ts)) p = true) ∧
    (addsOf env.fl p).Perm (((l.filter fun t => onlyH t.ts).map fun _ => .h (omega.n, omega.m)) ++
      ((kept so l).filter (Enabled env.fl)).map fun t => .sum (renderPyPrefactor (pyPrefactor so t.h t.ts)) (g t)) := by
  obtain ⟨h1, g', h2, h3⟩ := every_term_emitted_partial so hMax cc l p hp
  have hkey : ∀ t ∈ l, onlyH t.ts = true → (t.h.m, t.h.n) = (omega.n, omega.m) := by
    intro t ht hz
    obtain ⟨d1, d2, _, _, _, _, ⟨q1, q2, q3, q4⟩, _⟩ := term_data sol true true hMax cc smax hcc omega L hL t (hl t ht)
    have hz' : t.ts = [⟨0, 0, 0, 0⟩] := by simpa [onlyH] using hz
    rw [hz'] at q1 q2 q3 q4
    simp only [List.map_cons, List.map_nil, List.sum_cons, List.sum_nil] at q1 q2 q3 q4
    refine Prod.ext ?_ ?_ <;> simp only [] <;> omega
  have hgg : ∀ t ∈ kept so l, g' t = g t := by
    intro t ht
    have htl := (kept_sublist so l).subset ht
    have hto := (kept_keys so l t ht).1
    have := (h2 t htl hto).symm.trans (hg t (hl t htl) hto)
    injection this
  constructor
  · intro hfull
    unfold keysOk
    rw [Bool.and_eq_true, List.all_eq_true, List.all_eq_true]
    constructor
    · intro k hk
      rw [h1] at hk
      obtain ⟨t, ht, rfl⟩ := List.mem_map.1 hk
      obtain ⟨_, _, _, _, d5, _⟩ := term_data sol true true hMax cc smax hcc omega L hL t (hl t (List.mem_filter.1 ht).1)
      exact hfull.1 _ _ d5
    · intro e he
      obtain ⟨gr, hgr, he⟩ := List.mem_flatMap.1 he
      rw [(h3 env.fl).mem_iff] at hgr
      obtain ⟨t, ht, rfl⟩ := List.mem_map.1 hgr
      have ht' := (List.mem_filter.1 ht).1
      have htl := (kept_sublist so l).subset ht'
      have hto := (kept_keys so l t ht').1
      obtain ⟨_, _, _, _, d5, _⟩ := term_data sol true true hMax cc smax hcc omega L hL t (hl t htl)
      obtain ⟨n1, n2⟩ := term_ts_ne_nil sol true true hMax cc smax hcc omega L hL t (hl t htl)
      have hfit := fitsCode_of_generated sol true true hMax cc smax omegaMax hcc hH hS hP omega ho L hL t (hl t htl) hto
      obtain ⟨es, e1, _, e3⟩ := einsums_wellformed t hfit
      rw [h2 t htl hto] at e1
      cases e1
      obtain ⟨mid, vh, order, hE⟩ := e3 e he
      rcases n2 with n2 | ⟨_, n2⟩
      · exact absurd n2 hfit.hasT
      simp only [Bool.and_eq_true, List.all_eq_true]
      constructor
      · rw [hE.h_key]; exact hfull.1 _ _ d5
      · intro k hk
        rw [hE.t_keys] at hk
        obtain ⟨x, hx, rfl⟩ := List.mem_map.1 hk
        have hxt : x.1 ∈ t.ts := hE.operands.subset (List.mem_map_of_mem hx)
        obtain ⟨r1, r2, r3⟩ := n2 x.1 hxt
        obtain ⟨r3, r4⟩ := r3 rfl
        unfold ampRank at r1 r2
        have : x.1.n_h + x.1.n_o = 0 := by omega
        rw [this]
        exact hfull.2 _ (by omega) (by omega)
  · unfold addsOf
    rw [h1, List.map_map]
    refine List.Perm.append (List.Perm.of_eq ?_) ?_
    · apply List.map_congr_left
      intro t ht
      obtain ⟨ht, hz⟩ := List.mem_filter.1 ht
      simp only [Function.comp, hkey t ht hz]
    · refine ((h3 env.fl).map fun g => (Added.sum g.1 g.2 : Added Einsum)).trans (List.Perm.of_eq ?_)
      rw [List.map_map]
      apply List.map_congr_left
      intro t ht
      simp only [Function.comp, hgg t (List.mem_filter.1 ht).1]

/-- C68: a call of `compute_m_n_amplitude` of a generated module.  Without `confirm_at_least_singles` it raises;
with an ansatz that is not the ground state it raises `NotImplementedError`; otherwise, if the caller
passes all tensors, it returns a tensor with as many vibrational axes as the projection operator has
operators, and adds to it exactly: `h_args[(n, m)]` for a term without amplitudes, and for every term of the
projection operator that was kept by the writer and whose truncation flags are set, its prefactor times
the sum of its einsums.  (What "kept" leaves out is C23.) -/
theorem amplitude_run (so : SetOrder Nat) (sol : SetOrder (List T)) (hMax cc smax omegaMax : Nat) (hcc : 1 ≤ cc) (hH : hMax ≤ 6) (hS : smax ≤ 6)
    (hP : omegaMax ≤ 6) (F : List OmegaCode) (hF : pythonFile so sol hMax cc smax omegaMax = .ok F) (c : OmegaCode) (hc : c ∈ F) (env : Caller) :
    (env.singles = false → callAmplitude (moduleDefs F) env ("compute_m" ++ toString c.omega.m ++ "_n" ++ toString c.omega.n ++ "_amplitude") = .error .exception) ∧
    (env.singles = true → env.ground = false →
      callAmplitude (moduleDefs F) env ("compute_m" ++ toString c.omega.m ++ "_n" ++ toString c.omega.n ++ "_amplitude") = .error .notImplemented) ∧
    (env.singles = true → env.ground = true → FullArgs hMax cc env → ∃ L r, ∃ g : Term → List Einsum,
      termsFor sol true true hMax cc smax c.omega = .ok L ∧
      (∀ t ∈ L, onlyH t.ts = false → einsums t.h t.ts = .ok (g t) ∧
        ∀ e ∈ g t, e.out.length = c.omega.m + c.omega.n ∧ ∃ mid vh order, EinsumFor t e mid vh order) ∧
      callAmplitude (moduleDefs F) env ("compute_m" ++ toString c.omega.m ++ "_n" ++ toString c.omega.n ++ "_amplitude") = .ok (c.omega.m + c.omega.n, r) ∧
      r.Perm ((termGroups L).flatMap fun l => ((l.filter fun t => onlyH t.ts).map fun _ => .h (c.omega.n, c.omega.m)) ++
        ((kept so l).filter (Enabled env.fl)).map fun t => .sum (renderPyPrefactor (pyPrefactor so t.h t.ts)) (g t))) := by
  rw [amplitude_name]
  obtain ⟨h3, hn, _⟩ := three_of hcc hF
  obtain ⟨ho, L, hL, d0, d1, d2, o0, o1, o2, p0, p1, p2, ht, ⟨w0, w1, w2⟩, _, _⟩ := omega_code hcc hF hc
  have lk : ∀ {f b}, (f, b) ∈ defsOf c.omega d0 d1 d2 o0 o1 o2 p0 p1 p2 → lookup (moduleDefs F) f = some b := fun hm => lookup_defs h3 hn hc ht hm
  have la := lk (f := nm false (c.omega.m, c.omega.n) "_amplitude") (List.mem_of_getElem? (i := 3) rfl)
  have l0 := lk (f := nm true (c.omega.m, c.omega.n) "_fully_connected_terms") (List.mem_of_getElem? (i := 0) rfl)
  have l1 := lk (f := nm true (c.omega.m, c.omega.n) "_linked_disconnected_terms") (List.mem_of_getElem? (i := 1) rfl)
  have l2 := lk (f := nm true (c.omega.m, c.omega.n) "_unlinked_disconnected_terms") (List.mem_of_getElem? (i := 2) rfl)
  unfold callAmplitude
  rw [la]
  simp only [callAdds_three l0 l1 l2]
  refine ⟨fun h => by rw [h]; rfl, fun h h' => by rw [h, h']; rfl, fun h h' hfull => ?_⟩
  have hg : ∀ t : Term, ∃ es, t ∈ L → onlyH t.ts = false → einsums t.h t.ts = .ok es ∧ ∀ e ∈ es, ∃ mid vh order, EinsumFor t e mid vh order := by
    intro t
    by_cases hh : t ∈ L ∧ onlyH t.ts = false
    · obtain ⟨es, e1, _, e3⟩ := einsums_wellformed t (fitsCode_of_generated sol true true hMax cc smax omegaMax hcc hH hS hP _ ho L hL t hh.1 hh.2)
      exact ⟨es, fun _ _ => ⟨e1, e3⟩⟩
    · exact ⟨[], fun a b => absurd ⟨a, b⟩ hh⟩
  choose g hg using hg
  have hgg : ∀ t ∈ L, onlyH t.ts = false → einsums t.h t.ts = .ok (g t) := fun t a b => (hg t a b).1
  obtain ⟨k0, q0⟩ := sum_group so sol hMax cc smax omegaMax hcc hH hS hP _ ho L hL _ (fun t ht => (List.mem_filter.1 ht).1) d0 w0 g hgg env
  obtain ⟨k1, q1⟩ := sum_group so sol hMax cc smax omegaMax hcc hH hS hP _ ho L hL _ (fun t ht => (List.mem_filter.1 ht).1) d1 w1 g hgg env
  obtain ⟨k2, q2⟩ := sum_group so sol hMax cc smax omegaMax hcc hH hS hP _ ho L hL _ (fun t ht => (List.mem_filter.1 ht).1) d2 w2 g hgg env
  rw [h, h', k0 hfull, k1 hfull, k2 hfull]
  have hr : c.omega.rank = c.omega.m + c.omega.n := ((omegaOps_exact cc omegaMax c.omega).1 ho).2.1
  rw [hr]
  refine ⟨L, _, g, hL, fun t a b => ⟨hgg t a b, fun e he => ?_⟩, rfl, ?_⟩
  · obtain ⟨mid, vh, order, hE⟩ := (hg t a b).2 e he
    obtain ⟨d1, d2, _⟩ := term_data sol true true hMax cc smax hcc _ L hL t a
    refine ⟨?_, mid, vh, order, hE⟩
    rw [hE.out.2, d1, d2]
  · unfold termGroups
    simp only [List.flatMap_cons, List.flatMap_nil, List.append_nil]
    exact q0.append (q1.append q2)

/-! ## C69: the optimised functions -/

/-- the additions of one optimised program, served call by call -/
theorem serve_append {a b : List Path} {l : List OptCall} {s : List (OptCall × Path)} (h : serve a l = some (s, [])) : serve (a ++ b) l = some (s, b) := by
  induction l generalizing a s with
  | nil =>
    cases a with
    | nil => simp only [serve, Option.some.injEq, Prod.mk.injEq] at h ⊢; exact ⟨h.1, rfl⟩
    | cons x a => simp [serve] at h
  | cons c l ih =>
    cases a with
    | nil => simp [serve] at h
    | cons x a =>
      simp only [serve, List.cons_append, Option.map_eq_some_iff] at h ⊢
      obtain ⟨⟨s', r⟩, h1, h2⟩ := h
      simp only [Prod.mk.injEq] at h2
      obtain ⟨rfl, rfl⟩ := h2
      exact ⟨_, ih h1, rfl⟩

theorem serveSums_items (gs : List (String × List Item)) :
    serveSums ((gs.flatMap Prod.snd).map Item.p) (gs.map (mapG Item.o)) = some (gs.map fun g => .sum g.1 (g.2.map fun i => (i.o, i.p))) := by
  induction gs with
  | nil => rfl
  | cons g gs ih =>
    simp only [List.flatMap_cons, List.map_append, List.map_cons, serveSums]
    have : serve (List.map Item.p g.2 ++ List.map Item.p (gs.flatMap Prod.snd)) (mapG Item.o g).2 =
        some (g.2.map fun i => (i.o, i.p), List.map Item.p (gs.flatMap Prod.snd)) := serve_append (serve_map g.2)
    rw [this]
    simp only [ih, Option.map_some]
    rfl

/-- An expression was built for tensors of the shapes of the operands of the call it serves. -/
def ServedRight : Added (OptCall × Path) → Prop
  | .h _ => True
  | .sum _ l => ∀ x ∈ l, x.2.shapes = (x.1.h.1 + x.1.h.2) :: x.1.ts.map fun k => k.1 + k.2

/-- one group of terms: the optimised function with the paths of the same group -/
theorem opt_group (so : SetOrder Nat) (hMax cc : Nat) (l : List Term) (hfit : ∀ t ∈ l, onlyH t.ts = false → FitsCode t)
    (d : Program Einsum) (o : Program OptCall) (q : Program Path) (hd : writeDefault so hMax cc l = .ok d) (ho : writeOpt so hMax cc l = .ok o)
    (hq : writePaths so hMax cc l = .ok q) (env : Caller) :
    keysOk env (fun e : OptCall => (e.h, e.ts)) o = keysOk env (fun e : Einsum => (e.h, e.ts)) d ∧
    ∃ r, serveSums (runItems env.fl q) (run env.fl o) = some r ∧
      (o.adds.map Added.h ++ r).map Added.forget = (addsOf env.fl d).map Added.operands ∧ ∀ a ∈ o.adds.map Added.h ++ r, ServedRight a := by
  rcases three_programs so hMax cc l hfit with ⟨e, _, h2, _⟩ | ⟨P, h1, h2, h3, h4⟩
  · rw [ho] at h2; cases h2
  rw [ho] at h2; rw [hd] at h1; rw [hq] at h3
  cases h1; cases h2; cases h3
  have e1 : runItems env.fl { mapP Item.p P with adds := [] } = (runItems env.fl P).map Item.p := runItems_map Item.p env.fl P
  constructor
  · unfold keysOk
    rw [runItems_map, runItems_map, List.all_map, List.all_map]
    have ea : (mapP Item.o P).adds = (mapP Item.e P).adds := rfl
    rw [ea]
    congr 1
    rw [Bool.eq_iff_iff, List.all_eq_true, List.all_eq_true]
    refine forall₂_congr fun i hi => ?_
    obtain ⟨a, b, _⟩ := h4 env.fl i hi
    simp only [Function.comp, a, b]
  · rw [e1, run_map]
    refine ⟨_, serveSums_items (run env.fl P), ?_, ?_⟩
    · unfold addsOf
      rw [run_map]
      simp only [List.map_append, List.map_map]
      congr 1
      apply List.map_congr_left
      intro g hg
      simp only [Function.comp, Added.forget, Added.operands, mapG, List.map_map, Added.sum.injEq, true_and]
      apply List.map_congr_left
      intro i hi
      obtain ⟨a, b, _⟩ := h4 env.fl i (List.mem_flatMap.2 ⟨g, hg, hi⟩)
      simp only [Function.comp, a, b]
    · intro a ha
      rcases List.mem_append.1 ha with ha | ha
      · obtain ⟨k, _, rfl⟩ := List.mem_map.1 ha; trivial
      · obtain ⟨g, hg, rfl⟩ := List.mem_map.1 ha
        intro x hx
        obtain ⟨i, hi, rfl⟩ := List.mem_map.1 hx
        exact (h4 env.fl i (List.mem_flatMap.2 ⟨g, hg, hi⟩)).2.2

theorem callAddOpt_eq {M : List (String × Body)} {f : String} {p : Program OptCall} (h : lookup M f = some (.addOpt p)) (env : Caller) {ps : List Path}
    {r : List (Added (OptCall × Path))} (hr : serveSums ps (run env.fl p) = some r) :
    callAddOpt M env f ps = if env.ground then (if keysOk env (fun e : OptCall => (e.h, e.ts)) p then .ok (p.adds.map .h ++ r) else .error .key)
      else .error .notImplemented := by
  unfold callAddOpt
  rw [h]
  simp only [hr]

theorem amplitudeOpt_name (o : Op) : "compute_m" ++ toString o.m ++ "_n" ++ toString o.n ++ "_amplitude_optimized" = nm false (o.m, o.n) "_amplitude_optimized" := by
  apply String.toList_injective
  simp [nm]
theorem opPaths_name (o : Op) : "compute_m" ++ toString o.m ++ "_n" ++ toString o.n ++ "_optimized_paths" = nm false (o.m, o.n) "_optimized_paths" := by
  apply String.toList_injective
  simp [nm]

theorem opPaths_run {F : List OmegaCode} {so : SetOrder Nat} {sol : SetOrder (List T)} {hMax cc smax omegaMax : Nat} (hcc : 1 ≤ cc)
    (hF : pythonFile so sol hMax cc smax omegaMax = .ok F) {c : OmegaCode} (hc : c ∈ F) {d0 d1 d2 : Program Einsum} {o0 o1 o2 : Program OptCall}
    {p0 p1 p2 : Program Path} (ht : Three c d0 d1 d2 o0 o1 o2 p0 p1 p2) (env : Caller) :
    callOpPaths (moduleDefs F) env ("compute_m" ++ toString c.omega.m ++ "_n" ++ toString c.omega.n ++ "_optimized_paths") =
      if env.singles then (if env.ground then .ok ((c.omega.m, c.omega.n), [runItems env.fl p0, runItems env.fl p1, runItems env.fl p2]) else .error .notImplemented)
      else .error .exception := by
  rw [opPaths_name]
  obtain ⟨h3, hn, _⟩ := three_of hcc hF
  have lk : ∀ {f b}, (f, b) ∈ defsOf c.omega d0 d1 d2 o0 o1 o2 p0 p1 p2 → lookup (moduleDefs F) f = some b := fun hm => lookup_defs h3 hn hc ht hm
  have la := lk (f := nm false (c.omega.m, c.omega.n) "_optimized_paths") (List.mem_of_getElem? (i := 11) rfl)
  have l0 := lk (f := nm false (c.omega.m, c.omega.n) "_fully_connected_optimized_paths") (List.mem_of_getElem? (i := 8) rfl)
  have l1 := lk (f := nm false (c.omega.m, c.omega.n) "_linked_disconnected_optimized_paths") (List.mem_of_getElem? (i := 9) rfl)
  have l2 := lk (f := nm false (c.omega.m, c.omega.n) "_unlinked_disconnected_optimized_paths") (List.mem_of_getElem? (i := 10) rfl)
  unfold callOpPaths
  rw [la]
  simp only [callTypesPaths, callTypePaths, l0, l1, l2]
  cases env.singles <;> cases env.ground <;> simp

/-- C69: `compute_m_n_optimized_paths` returns a dictionary with the key `(m, n)`; a call of
`compute_m_n_amplitude_optimized` with its value, the same ansatz and the same truncation does what the call
of `compute_m_n_amplitude` does: it raises the same exception, or adds up the same prefactors, `h_args` and
products of the same tensors in the same order, each product computed by an expression built for
tensors of the right shapes. -/
theorem amplitude_optimized_run_partial (so : SetOrder Nat) (sol : SetOrder (List T)) (hMax cc smax omegaMax : Nat) (hcc : 1 ≤ cc) (hH : hMax ≤ 6) (hS : smax ≤ 6)
    (hP : omegaMax ≤ 6) (F : List OmegaCode) (hF : pythonFile so sol hMax cc smax omegaMax = .ok F) (c : OmegaCode) (hc : c ∈ F) (env : Caller)
    (hs : env.singles = true) (hgr : env.ground = true) :
    ∃ l, callOpPaths (moduleDefs F) env ("compute_m" ++ toString c.omega.m ++ "_n" ++ toString c.omega.n ++ "_optimized_paths") = .ok ((c.omega.m, c.omega.n), l) ∧
      ∀ paths : Nat × Nat → Option (List (List Path)), paths (c.omega.m, c.omega.n) = some l →
        (∀ e, callAmplitude (moduleDefs F) env ("compute_m" ++ toString c.omega.m ++ "_n" ++ toString c.omega.n ++ "_amplitude") = .error e →
          callAmplitudeOpt (moduleDefs F) env paths ("compute_m" ++ toString c.omega.m ++ "_n" ++ toString c.omega.n ++ "_amplitude_optimized") = .error e) ∧
        ∀ axes r, callAmplitude (moduleDefs F) env ("compute_m" ++ toString c.omega.m ++ "_n" ++ toString c.omega.n ++ "_amplitude") = .ok (axes, r) →
          ∃ r', callAmplitudeOpt (moduleDefs F) env paths ("compute_m" ++ toString c.omega.m ++ "_n" ++ toString c.omega.n ++ "_amplitude_optimized") = .ok (axes, r') ∧
            r'.map Added.forget = r.map Added.operands ∧ ∀ a ∈ r', ServedRight a := by
  obtain ⟨h3, hn, _⟩ := three_of hcc hF
  obtain ⟨ho, L, hL, d0, d1, d2, o0, o1, o2, p0, p1, p2, ht, ⟨w0, w1, w2⟩, ⟨v0, v1, v2⟩, u0, u1, u2⟩ := omega_code hcc hF hc
  rw [opPaths_run hcc hF hc ht, hs, hgr, amplitude_name, amplitudeOpt_name]
  refine ⟨_, rfl, fun paths hpaths => ?_⟩
  have lk : ∀ {f b}, (f, b) ∈ defsOf c.omega d0 d1 d2 o0 o1 o2 p0 p1 p2 → lookup (moduleDefs F) f = some b := fun hm => lookup_defs h3 hn hc ht hm
  have la := lk (f := nm false (c.omega.m, c.omega.n) "_amplitude") (List.mem_of_getElem? (i := 3) rfl)
  have l0 := lk (f := nm true (c.omega.m, c.omega.n) "_fully_connected_terms") (List.mem_of_getElem? (i := 0) rfl)
  have l1 := lk (f := nm true (c.omega.m, c.omega.n) "_linked_disconnected_terms") (List.mem_of_getElem? (i := 1) rfl)
  have l2 := lk (f := nm true (c.omega.m, c.omega.n) "_unlinked_disconnected_terms") (List.mem_of_getElem? (i := 2) rfl)
  have ma := lk (f := nm false (c.omega.m, c.omega.n) "_amplitude_optimized") (List.mem_of_getElem? (i := 7) rfl)
  have m0 := lk (f := nm true (c.omega.m, c.omega.n) "_fully_connected_terms_optimized") (List.mem_of_getElem? (i := 4) rfl)
  have m1 := lk (f := nm true (c.omega.m, c.omega.n) "_linked_disconnected_terms_optimized") (List.mem_of_getElem? (i := 5) rfl)
  have m2 := lk (f := nm true (c.omega.m, c.omega.n) "_unlinked_disconnected_terms_optimized") (List.mem_of_getElem? (i := 6) rfl)
  have hfit : ∀ l : List Term, (∀ t ∈ l, t ∈ L) → ∀ t ∈ l, onlyH t.ts = false → FitsCode t := fun l hl t ht hto =>
    fitsCode_of_generated sol true true hMax cc smax omegaMax hcc hH hS hP _ ho L hL t (hl t ht) hto
  obtain ⟨k0, r0, s0, f0, g0⟩ := opt_group so hMax cc _ (hfit _ fun t ht => (List.mem_filter.1 ht).1) d0 o0 p0 w0 v0 u0 env
  obtain ⟨k1, r1, s1, f1, g1⟩ := opt_group so hMax cc _ (hfit _ fun t ht => (List.mem_filter.1 ht).1) d1 o1 p1 w1 v1 u1 env
  obtain ⟨k2, r2, s2, f2, g2⟩ := opt_group so hMax cc _ (hfit _ fun t ht => (List.mem_filter.1 ht).1) d2 o2 p2 w2 v2 u2 env
  have c0 := callAddOpt_eq m0 env s0
  have c1 := callAddOpt_eq m1 env s1
  have c2 := callAddOpt_eq m2 env s2
  unfold callAmplitude callAmplitudeOpt
  rw [la, ma]
  simp only [callAdds_three l0 l1 l2, hs, hgr, if_true, hpaths, List.length_cons, List.length_nil, List.zip_cons_cons, List.zip_nil_right,
    callAddsOpt, c0, c1, c2, k0, k1, k2]
  cases keysOk env (fun e : Einsum => (e.h, e.ts)) d0 with
  | false => simp
  | true =>
    cases keysOk env (fun e : Einsum => (e.h, e.ts)) d1 with
    | false => simp
    | true =>
      cases keysOk env (fun e : Einsum => (e.h, e.ts)) d2 with
      | false => simp
      | true =>
        refine ⟨fun e h => by simp at h, fun axes r h => ?_⟩
        simp only [Bool.and_self, if_true] at h ⊢
        injection h with h
        injection h with h h'
        subst h
        subst h'
        refine ⟨_, rfl, ?_, ?_⟩
        · rw [List.append_nil, List.map_append (l₁ := o0.adds.map Added.h ++ r0), List.map_append (l₁ := o1.adds.map Added.h ++ r1), f0, f1, f2,
            List.map_append, List.map_append]
        · intro a ha
          simp only [List.append_nil] at ha
          rcases List.mem_append.1 ha with ha | ha
          · exact g0 a ha
          · rcases List.mem_append.1 ha with ha | ha
            · exact g1 a ha
            · exact g2 a ha

/-- C69: `compute_all_optimized_paths` never returns.  When the truncation and the ansatz are accepted it
raises `TypeError`: it assigns to a list with a pair as index. -/
theorem all_optimized_paths_raises (so : SetOrder Nat) (sol : SetOrder (List T)) (hMax cc smax omegaMax : Nat) (hcc : 1 ≤ cc) (F : List OmegaCode)
    (hF : pythonFile so sol hMax cc smax omegaMax = .ok F) (env : Caller) :
    callAllPaths (moduleDefs F) env "compute_all_optimized_paths" =
      .error (if env.singles then (if env.ground then .type else .notImplemented) else .exception) := by
  obtain ⟨h3, hn, hm⟩ := three_of hcc hF
  have la : lookup (moduleDefs F) "compute_all_optimized_paths" = some (allPathsDef (F.map OmegaCode.omega)).2 := by
    refine lookup_of ((mem_moduleDefs h3 _).2 (.inr rfl)) ?_
    intro b' hb'
    rcases (mem_moduleDefs h3 _).1 hb' with ⟨c, _, d0, d1, d2, o0, o1, o2, p0, p1, p2, _, h⟩ | h
    · exfalso
      simp only [defsOf, List.mem_cons, List.not_mem_nil, or_false, Prod.mk.injEq] at h
      rcases h with h | h | h | h | h | h | h | h | h | h | h | h <;> exact nm_ne_all h.1.symm
    · injection h
  cases hFc : F with
  | nil =>
    exfalso
    have : (⟨"", 0, 0, 0⟩ : Op) ∈ omegaOps cc omegaMax := (omegaOps_exact cc omegaMax _).2 ⟨rfl, rfl, by simp, by simp⟩
    rw [← hm, hFc] at this
    cases this
  | cons c l =>
    rw [← hFc]
    have hc : c ∈ F := by rw [hFc]; simp
    obtain ⟨_, _, _, d0, d1, d2, o0, o1, o2, p0, p1, p2, ht, _⟩ := omega_code hcc hF hc
    have := opPaths_run hcc hF hc ht env
    unfold callAllPaths
    rw [la]
    have e : (allPathsDef (F.map OmegaCode.omega)).2 = .allPaths (((c.omega.m, c.omega.n),
        "compute_m" ++ toString c.omega.m ++ "_n" ++ toString c.omega.n ++ "_optimized_paths") ::
        (l.map OmegaCode.omega).map fun o => ((o.m, o.n), "compute_m" ++ toString o.m ++ "_n" ++ toString o.n ++ "_optimized_paths")) := by rw [hFc]; rfl
    rw [e]
    simp only [assignAll, this]
    cases env.singles <;> cases env.ground <;> simp

/-- C69, what is wrong with the expressions: the text of an expression is determined by the shapes of the
operands alone, it has no subscripts.  Calls with the same operands get the same expression. -/
theorem expressions_without_subscripts {r : List (Added (OptCall × Path))} (h : ∀ a ∈ r, ServedRight a) {p q : String} {l k : List (OptCall × Path)}
    (hl : Added.sum p l ∈ r) (hk : Added.sum q k ∈ r) {x y : OptCall × Path} (hx : x ∈ l) (hy : y ∈ k) (he : x.1 = y.1) : x.2.render = y.2.render := by
  have a := h _ hl x hx
  have b := h _ hk y hy
  rw [he, ← b] at a
  unfold Path.render
  rw [a]

/-- the module generated at `H=2, CC=1, S=2, P=1` and a caller that passes all tensors -/
def exFile : List OmegaCode :=
  match pythonFile (SetOrder.std _) (SetOrder.std _) 2 1 2 1 with
  | .ok F => F
  | .error _ => []
def exCaller : Caller := ⟨true, true, allOn, fun k => k.1 + k.2 ≤ 2, fun k => k = (1, 0)⟩

/-- C69, witness: one function computes `aci, cdz, dbi -> abz` and `aci, cdi, dbz -> abz`, which are different
contractions, and the optimised function gets the same expression for both. -/
theorem same_expression_witness :
    ((callAmplitude (moduleDefs exFile) exCaller "compute_m0_n1_amplitude").toOption.map fun r =>
      r.2.getLast?.map fun (a : Added Einsum) => match a with | .h _ => [] | .sum _ l => l.map Einsum.render) =
      some (some ["np.einsum('aci, cdz, dbi -> abz', h_args[(0, 1)], t_args[(1, 0)], t_args[(1, 0)])",
        "np.einsum('aci, cdi, dbz -> abz', h_args[(0, 1)], t_args[(1, 0)], t_args[(1, 0)])"]) ∧
    ((callOpPaths (moduleDefs exFile) exCaller "compute_m0_n1_optimized_paths").toOption.map fun r => r.2.map fun l => l.map Path.render) =
      some [["oe.contract_expression((A, A, N, N), (A, A, N))"], [], ["oe.contract_expression((A, A), (A, A, N))",
        "oe.contract_expression((A, A, N), (A, A, N), (A, A, N))", "oe.contract_expression((A, A, N), (A, A, N), (A, A, N))"]] := by
  decide +kernel

/-- The hypotheses of C68 and C69 are met: the module exists, has three projection operators, and the
caller passes all tensors. -/
example : pythonFile (SetOrder.std _) (SetOrder.std _) 2 1 2 1 = .ok exFile ∧ exFile.map (fun (c : OmegaCode) => (c.omega.m, c.omega.n)) = [(0, 0), (0, 1), (1, 0)] := by
  constructor
  · obtain ⟨F, hF⟩ := ((pythonFile_ok_iff (SetOrder.std _) (SetOrder.std _) 2 1 2 1 (by omega) (by omega) (by omega)).1).2 (by omega)
    unfold exFile
    rw [hF]
  · decide +kernel
example : FullArgs 2 1 exCaller := by
  refine ⟨fun m n h => by simpa [exCaller] using h, fun m h h' => ?_⟩
  have : m = 1 := by omega
  subst this
  simp [exCaller]

/-- The amplitude of the projection `(0, 1)`, and what changes when the truncation has no terms of rank 2 in the
Hamiltonian, no singles, or the ansatz is not the ground state. -/
example : (callAmplitude (moduleDefs exFile) exCaller "compute_m0_n1_amplitude").toOption.map (fun r => (r.1, r.2.map fun (a : Added Einsum) =>
      match a with | .h k => ("h", [renderArg "h" k]) | .sum p l => (p, l.map Einsum.render))) =
    some (1, [("h", ["h_args[(1, 0)]"]), ("", ["np.einsum('aciz, cbi -> abz', h_args[(1, 1)], t_args[(1, 0)])"]),
      ("", ["np.einsum('ac, cbz -> abz', h_args[(0, 0)], t_args[(1, 0)])"]),
      ("1/(factorial(2)) * ", ["np.einsum('aci, cdz, dbi -> abz', h_args[(0, 1)], t_args[(1, 0)], t_args[(1, 0)])",
        "np.einsum('aci, cdi, dbz -> abz', h_args[(0, 1)], t_args[(1, 0)], t_args[(1, 0)])"])]) := by
  decide +kernel
example : (callAmplitude (moduleDefs exFile) { exCaller with fl := ⟨fun _ => false, fun _ => true⟩ } "compute_m0_n1_amplitude").toOption.map
    (fun r => r.2.length) = some 2 := by decide +kernel
example : (match callAmplitude (moduleDefs exFile) { exCaller with t := fun _ => false } "compute_m0_n1_amplitude" with
    | .error e => some e | .ok _ => none) = some .key := by decide +kernel

end TF.CC
