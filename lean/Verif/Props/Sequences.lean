import Verif.Sequences
import Verif.Props.Nested
import Verif.Props.Lost

/-!
# C86: texts written as chains of links are read back
-/

namespace Verif

theorem View.SourcesExist.set {v : View} (h : v.SourcesExist) {i a b : Nat} (ha : a = 0 ∨ a = i ∨ v a ≠ none) :
    (v.set i (a, b)).SourcesExist := by
  have keep : ∀ x, v x ≠ none → v.set i (a, b) x ≠ none := by
    intro x hx
    by_cases e : x = i
    · rw [e, View.set_same]; simp
    · rwa [View.set_other _ _ e]
  intro k x y hk h0
  by_cases e : k = i
  · rw [e, View.set_same] at hk; cases hk
    rcases ha with ha | ha | ha
    · exact absurd ha h0
    · rw [ha, View.set_same]; simp
    · exact keep a ha
  · rw [View.set_other _ _ e] at hk
    exact keep x (h k x y hk h0)

end Verif

namespace Verif.Unit.Props
open Verif Verif.Unit

variable {c : Cfg}

theorem text_law (hc : CfgOK c) (hcap : ∀ s, Reach c s → CanGrow c s) :
    TextLaw (links c) (fun s => Reach c s ∧ ((links c).view s).SourcesExist) (fun _ => True) where
  null s h := (reachLawful hc).null s h.1
  sources s h := h.2
  ok_ne _ _ := trivial
  get s h := (reachLawful hc).get s h.1
  create := by
    intro s h
    rcases (reachLawful hc).create s h.1 (hcap s h.1) [] with ⟨e, h1⟩ | ⟨i, s', h1, h2, -, h4, h5⟩
    · exact .inl ⟨e, h1⟩
    · refine .inr ⟨i, s', _, _, rfl, h5, ?_, h1, ⟨h2, ?_⟩, h4⟩
      · rintro rfl
        have := (reachLawful hc).null s' h2
        rw [h4, View.set_same] at this; cases this
      · rw [h4]; exact h.2.set (.inl rfl)
  fill := by
    intro s h i x y hi hx _
    obtain ⟨s', b, -, h1, -, h2, h3⟩ := (reachLawful hc).update s h.1 i (0, 0) hi
      (fun p hp h0 => by rw [hi] at hp; cases hp; exact absurd rfl h0) i x y trivial
    exact ⟨s', b, ⟨i, x, y⟩, rfl, h3, ⟨h1, by rw [h2]; exact h.2.set (.inr (.inr hx))⟩, h2⟩
  each := by
    intro s h x hx
    refine (reachLawful hc).each_source s h.1 x ?_ ?_
    · rintro rfl; exact hx ((reachLawful hc).null s h.1)
    · rintro rfl; exact hx ((reachLawful hc).any_absent s h.1)

/-- **C86**, united store. Take a store on a memory that, when it grows, stays within the index type, in which the source of every
link is null or a link. Write texts one after the other (`write_seq`). Every call returns, whether the memory suffices or not.
No link that was there changes, and no new link starts at one of them. If no call failed then there is one root for each text,
they are different new links, and reading from each root (`read_seq`) gives the text written there. -/
theorem C86_texts_are_read_back (hc : CfgOK c) (hcap : ∀ s, Reach c s → CanGrow c s) {s : Store} (h : Reach c s)
    (hs : ((links c).view s).SourcesExist) (texts : List (List Nat)) :
    ∃ o, writeTexts (links c) texts s = some o ∧ Reach c o.st ∧ ((links c).view o.st).SourcesExist ∧
      (∀ k p, (links c).view s k = some p → (links c).view o.st k = some p) ∧
      (∀ k a b, (links c).view o.st k = some (a, b) → (links c).view s a ≠ none → (links c).view s k = some (a, b)) ∧
      ∀ roots, o.res = .ok roots → roots.Nodup ∧ roots.length = texts.length ∧
        ∀ (n : Nat) r t, roots[n]? = some r → texts[n]? = some t → (links c).view s r = none ∧
          ∀ fuel, t.length < fuel → readText (links c) fuel r o.st = some (.ok t) := by
  obtain ⟨o, h1, h2, h3, h4⟩ := (text_law hc hcap).texts_law texts ⟨h, hs⟩ (fun _ _ _ _ => trivial)
  refine ⟨o, h1, h2.1, h2.2, h3.1, fun k a b hk ha => h3.old ha hk, fun roots hr => ?_⟩
  obtain ⟨g1, g2, g3⟩ := h4 roots hr
  refine ⟨g1, g2, fun n r t hr ht => ?_⟩
  obtain ⟨k1, k2, k3⟩ := g3 (r, t) (List.mem_iff_getElem?.2 ⟨n, List.getElem?_zip_eq_some.2 ⟨hr, ht⟩⟩)
  exact ⟨k1, (text_law hc hcap).read_law h2 t (by rw [k2]; simp) k3⟩

/-- **C86**, united store, continued. A text that is there stays readable while other texts are written. -/
theorem C86_texts_stay (hc : CfgOK c) (hcap : ∀ s, Reach c s → CanGrow c s) {s : Store} (h : Reach c s)
    (hs : ((links c).view s).SourcesExist) {r : Nat} (hr : (links c).view s r ≠ none) {t : List Nat}
    (ht : ((links c).view s).Text r t) (texts : List (List Nat)) :
    ∃ o, writeTexts (links c) texts s = some o ∧ ((links c).view o.st).Text r t ∧
      ∀ fuel, t.length < fuel → readText (links c) fuel r s = some (.ok t) ∧
        readText (links c) fuel r o.st = some (.ok t) := by
  obtain ⟨o, h1, h2, h3, -⟩ := (text_law hc hcap).texts_law texts ⟨h, hs⟩ (fun _ _ _ _ => trivial)
  exact ⟨o, h1, h3.text hr ht, fun fuel hf => ⟨(text_law hc hcap).read_law ⟨h, hs⟩ t hr ht fuel hf,
    (text_law hc hcap).read_law h2 t (h3.1.present hr) (h3.text hr ht) fuel hf⟩⟩

/-- Three texts are written to a store that holds the points 1 and 2: their roots are links 3, 10 and 13. -/
example : CfgOK cfgCap ∧ (∀ s, Reach cfgCap s → CanGrow cfgCap s) ∧ Reach cfgCap sTwo ∧
    ((links cfgCap).view sTwo).SourcesExist ∧
    (writeTexts (links cfgCap) [[66, 60, 66], [70], []] sTwo).map (·.res) = some (.ok [3, 10, 13]) ∧
    ((writeTexts (links cfgCap) [[66, 60, 66], [70], []] sTwo).bind fun o => readText (links cfgCap) 4 3 o.st) =
      some (.ok [66, 60, 66]) :=
  ⟨cfgCap_ok, fun s _ => cfgCap_grow s, (C51_careful_client cfgCap_ok sTwo_client).1,
    fun k a b hk _ => ((C51_careful_client cfgCap_ok sTwo_client).2.2.1 k a b hk).1, by decide +kernel, by decide +kernel⟩

/-- A store with one link 1 = (3, 1), whose source is not a link. -/
def sAstray : Store := runs cfgCap [.create, .update 1 3 1]

theorem sAstray_reach : Reach cfgCap sAstray := by
  have h : (exec cfgCap [.create, .update 1 3 1] (store0 cfgCap)).isSome = true := by decide +kernel
  obtain ⟨r, hr⟩ := Option.isSome_iff_exists.1 h
  have : sAstray = r.1 := by simp [sAstray, runs, hr]
  rw [this]
  exact exec_reach cfgCap_ok cap_good _ (store0_reach cap_good rfl) hr

/-- **C86**, united store, why the sources have to exist. Index 3, which is not a link, is the source of link 1 = (3, 1). A text is
written without an error; its alias gets index 3, and reading goes on along link 1: instead of the text 66 it gives
66 and 1. -/
theorem C86_dangling_source_spoils_a_text : ∃ (c : Cfg) (s : Store) (o : Out Store _root_.Unit Nat), CfgOK c ∧
    (∀ s, Reach c s → CanGrow c s) ∧ Reach c s ∧ (links c).view s 1 = some (3, 1) ∧ (links c).view s 3 = none ∧
    writeText (links c) [66] s = some o ∧ o.res = .ok 2 ∧ readText (links c) 9 2 o.st = some (.ok [66, 1]) := by
  have h1 : (writeText (links cfgCap) [66] sAstray).map (·.res) = some (.ok 2) := by decide +kernel
  have h2 : ((writeText (links cfgCap) [66] sAstray).bind fun o => readText (links cfgCap) 9 2 o.st) = some (.ok [66, 1]) := by
    decide +kernel
  cases h : writeText (links cfgCap) [66] sAstray with
  | none => rw [h] at h1; cases h1
  | some o =>
    rw [h] at h1 h2
    exact ⟨cfgCap, sAstray, o, cfgCap_ok, fun s _ => cfgCap_grow s, sAstray_reach, by decide +kernel, by decide +kernel, h,
      Option.some.inj h1, h2⟩

end Verif.Unit.Props

namespace Verif.Split.Props
open Verif Verif.Split

variable {c : Cfg}

/-- A history that leaves no link lost to queries for its source, and every source null or a link. -/
def TextHistory (c : Cfg) (s : Store) : Prop :=
  ∃ f, LostHistory c s f ∧ (∀ k, ¬ f.lost .src k) ∧ f.view.SourcesExist

theorem TextHistory.view (hc : CfgOK c) {s : Store} {f : Filed} (h : LostHistory c s f) : (links c).view s = f.view := by
  obtain ⟨free, h⟩ := lost_history hc h
  exact h.links_view hc

theorem create_returns (hc : CfgOK c) {s : Store} {free : List Nat} {f : Filed} (h : At c s free f) (hg : CanGrow c s) :
    (links c).create s ≠ none := by
  have hu := createLinks_uniform c s []
  rcases createLinks_gen hc h.net h.exact (fun _ _ hk => hk.1.2.2) [] recH none with
    ⟨x, rest, s', hf, h1, h2, h3, h4⟩ | ⟨hf, h1, h2⟩ | ⟨hf, h1, h2, h3, h4⟩ | ⟨hf, h1, h2, h3, h4, h5⟩ |
    ⟨hf, h1, h2, h3, h4, h5, h6⟩ | ⟨hf, h1, s', h2, h3, h4⟩
  · rw [create_of_succeeds (hu.succeeds h1)]; simp
  · rw [Links.create_err (D := links c) (hu.fails h2)]; simp
  · rw [Links.create_err (D := links c) (hu.fails h4)]; simp
  · rw [Links.create_err (D := links c) (hu.fails h5)]; simp
  · have := (hg h3).2; omega
  · rw [create_of_succeeds (hu.succeeds h2)]; simp

theorem text_law (hc : CfgOK c) (hcap : ∀ s, TextHistory c s → CanGrow c s) :
    TextLaw (links c) (TextHistory c) (fun x => x ≠ 0) where
  null := by
    rintro s ⟨f, h, -⟩
    obtain ⟨free, h⟩ := lost_history hc h
    rw [h.links_view hc, h.view, if_neg]
    intro hl; have := hl.1; omega
  sources := by
    rintro s ⟨f, h, -, h2⟩
    rw [TextHistory.view hc h]; exact h2
  ok_ne _ h := h
  get := by
    rintro s ⟨f, h, -⟩ i
    obtain ⟨free, h⟩ := lost_history hc h
    rw [h.links_view hc, h.view]
    show getLink c s i = _
    rw [getLink_eq hc h.net h.exact]
    by_cases hl : LiveIn s free i <;> simp [hl, Store.linkAt]
  create := by
    rintro s ⟨f, h, h1, h2⟩
    obtain ⟨free, hat⟩ := lost_history hc h
    have hv := hat.links_view hc
    have hu := createLinks_uniform c s []
    have hg := hcap s ⟨f, h, h1, h2⟩
    have hgt : GrowTogether c s := fun hd => (hg hd).1
    rcases hat.create hc hgt with ⟨hm, hn⟩ | ⟨i, s', hcr, hi0, hiv, free', hat'⟩ | ⟨e, hcr, -⟩
    · exact absurd hn (create_returns hc hat hg)
    · obtain ⟨b, a, e, hS⟩ := Uniform.create_succeeds (D := links c) hu hcr
      refine .inr ⟨i, s', b, a, e, hS, hi0, by rw [hv, hiv], ⟨f.create i, ?_, ?_, ?_⟩, ?_⟩
      · exact .call c.dalloc c.ialloc .create h hc.dalloc_eq hc.ialloc_eq (fun _ => hgt) trivial
          (o := ⟨.ok i, s', ()⟩) hcr
      · rintro k (hk | ⟨b, hk⟩)
        · exact h1 k hk
        · exact h2 k i b hk hi0 hiv
      · exact h2.set (.inl rfl)
      · rw [hat'.links_view hc, hv]; rfl
    · exact .inl ⟨e, Uniform.create_fails (D := links c) hu hcr⟩
  fill := by
    rintro s ⟨f, h, h1, h2⟩ i x y hi hx hy
    obtain ⟨free, hat⟩ := lost_history hc h
    have hv := hat.links_view hc
    have hu := updateLinks_uniform c s [i] [i, x, y]
    rw [hv] at hi hx
    have hl : ∀ d, ¬ f.lost d i := by
      intro d hd
      obtain ⟨e, he, h0, -⟩ := (C75_contents hc h).2.2 d i hd
      cases d <;> (obtain ⟨z, he⟩ := he; rw [hi] at he; cases he; exact h0 rfl)
    have hsg : ∀ d, f.Single d i := by
      intro d j p _ hp _ hr
      refine absurd ?_ hr
      cases d <;> exact ⟨0, hi⟩
    have hal : f.Allows (.update i x y) := ⟨fun d => ⟨hl d, hsg d⟩, fun _ => hy⟩
    rcases hat.update hc hal with ⟨-, s', hup, free', hat'⟩ | ⟨hn, -⟩
    · obtain ⟨b, a, e, hS⟩ := Uniform.update_succeeds (D := links c) hu hup
      refine ⟨s', b, a, e, hS, ⟨f.update i x y, ?_, ?_, h2.set (.inr (.inr hx))⟩, ?_⟩
      · exact .call c.dalloc c.ialloc (.update i x y) h hc.dalloc_eq hc.ialloc_eq (fun h => nomatch h) hal
          (o := ⟨.ok i, s', ()⟩) hup
      · rintro k (⟨-, hk⟩ | ⟨-, -, a', b', hi', h0⟩)
        · exact h1 k hk
        · rw [hi] at hi'; cases hi'; exact h0 rfl
      · rw [hat'.links_view hc, hv]; rfl
    · rw [hn] at hi; cases hi
  each := by
    rintro s ⟨f, h, h1, h2⟩ x hx
    have hv := TextHistory.view hc h
    rw [hv] at hx ⊢
    obtain ⟨free, hat⟩ := lost_history hc h
    have hl : LiveIn s free x := hat.live.1 hx
    have hxa : x ≠ c.consts.any := by
      have := hl.2.1; have := hat.net.base.alloc_le; have := hc.end_lt_any; omega
    obtain ⟨L, g1, g2, g3, -⟩ := C75_found_by_source hc h (x := x) (by have := hl.1; omega) hxa
    exact ⟨L, g1, g2, fun l => by rw [g3]; simp [h1]⟩

/-- **C86**, split store. Take a store on memories that, when they grow, grow together and stay within the index type, after a
history that leaves no link lost to queries for its source, with every source null or a link. Write texts without null symbols
one after the other (`write_seq`); the symbols need not be links, and may be or become indices of links. Every call returns,
whether the memory suffices or not. No link that was there changes, and no new link starts at one of them. If no call failed
then there is one root for each text, they are different new links, and reading from each root (`read_seq`) gives the text
written there. -/
theorem C86_split_texts_are_read_back (hc : CfgOK c) (hcap : ∀ s, TextHistory c s → CanGrow c s) {s : Store}
    (h : TextHistory c s) {texts : List (List Nat)} (h0 : ∀ t ∈ texts, 0 ∉ t) :
    ∃ o, writeTexts (links c) texts s = some o ∧ TextHistory c o.st ∧
      (∀ k p, (links c).view s k = some p → (links c).view o.st k = some p) ∧
      (∀ k a b, (links c).view o.st k = some (a, b) → (links c).view s a ≠ none → (links c).view s k = some (a, b)) ∧
      ∀ roots, o.res = .ok roots → roots.Nodup ∧ roots.length = texts.length ∧
        ∀ (n : Nat) r t, roots[n]? = some r → texts[n]? = some t → (links c).view s r = none ∧
          ∀ fuel, t.length < fuel → readText (links c) fuel r o.st = some (.ok t) := by
  obtain ⟨o, h1, h2, h3, h4⟩ := (text_law hc hcap).texts_law texts h
    (fun t ht x hx e => h0 t ht (by rw [← e]; exact hx))
  refine ⟨o, h1, h2, h3.1, fun k a b hk ha => h3.old ha hk, fun roots hr => ?_⟩
  obtain ⟨g1, g2, g3⟩ := h4 roots hr
  refine ⟨g1, g2, fun n r t hr ht => ?_⟩
  obtain ⟨k1, k2, k3⟩ := g3 (r, t) (List.mem_iff_getElem?.2 ⟨n, List.getElem?_zip_eq_some.2 ⟨hr, ht⟩⟩)
  exact ⟨k1, (text_law hc hcap).read_law h2 t (by rw [k2]; simp) k3⟩

/-- **C86**, split store, continued. A text that is there stays readable while other texts are written. -/
theorem C86_split_texts_stay (hc : CfgOK c) (hcap : ∀ s, TextHistory c s → CanGrow c s) {s : Store}
    (h : TextHistory c s) {r : Nat} (hr : (links c).view s r ≠ none) {t : List Nat}
    (ht : ((links c).view s).Text r t) {texts : List (List Nat)} (h0 : ∀ t ∈ texts, 0 ∉ t) :
    ∃ o, writeTexts (links c) texts s = some o ∧ ((links c).view o.st).Text r t ∧
      ∀ fuel, t.length < fuel → readText (links c) fuel r s = some (.ok t) ∧
        readText (links c) fuel r o.st = some (.ok t) := by
  obtain ⟨o, h1, h2, h3, -⟩ := (text_law hc hcap).texts_law texts h
    (fun t ht x hx e => h0 t ht (by rw [← e]; exact hx))
  exact ⟨o, h1, h3.text hr ht, fun fuel hf => ⟨(text_law hc hcap).read_law h t hr ht fuel hf,
    (text_law hc hcap).read_law h2 t (h3.1.present hr) (h3.text hr ht) fuel hf⟩⟩

theorem cfgCap_grow_text {s : Store} (h : TextHistory cfgCap s) : CanGrow cfgCap s := by
  obtain ⟨f, h, -⟩ := h
  obtain ⟨free, hf⟩ := lost_history cfgCap_ok h
  have he := hf.net.base.len_eq
  intro hd
  have hd : (if s.dlen + 8 ≤ 255 then some (s.dlen + 8) else none) ≠ none := hd
  rw [he] at hd
  by_cases hl : s.ilen + 8 ≤ 255
  · refine ⟨?_, hl⟩
    show (if s.ilen + 8 ≤ 255 then some (s.ilen + 8) else none) ≠ none
    rw [if_pos hl]; simp
  · rw [if_neg hl] at hd; exact absurd rfl hd

theorem store0_text : TextHistory cfgCap (store0 cfgCap) :=
  ⟨.empty, .fresh (c := cfgCap) cfgCap.dalloc cfgCap.ialloc cap_exact cap_exact rfl, fun _ => id, fun k a b h => by cases h⟩

/-- Three texts are written to an empty store: their roots are links 1, 8 and 11. Symbols 5 and 9 become links, 66 does not. -/
example : CfgOK cfgCap ∧ (∀ s, TextHistory cfgCap s → CanGrow cfgCap s) ∧ TextHistory cfgCap (store0 cfgCap) ∧
    (∀ t ∈ [[66, 5, 9], [70], []], 0 ∉ t) ∧
    (writeTexts (links cfgCap) [[66, 5, 9], [70], []] (store0 cfgCap)).map (·.res) = some (.ok [1, 8, 11]) ∧
    ((writeTexts (links cfgCap) [[66, 5, 9], [70], []] (store0 cfgCap)).bind fun o => readText (links cfgCap) 4 1 o.st) =
      some (.ok [66, 5, 9]) :=
  ⟨cfgCap_ok, fun s h => cfgCap_grow_text h, store0_text, by decide, by decide +kernel, by decide +kernel⟩

/-- **C86**, split store, why symbols must not be null. A text with a null symbol is written to an empty store without an error; the alias
with source 3 and null target is not a link of the store any more, and reading the text fails. -/
theorem C86_split_null_symbol_is_unreadable : ∃ (c : Cfg) (s : Store) (o : Out Store _root_.Unit Nat), CfgOK c ∧
    (∀ s, TextHistory c s → CanGrow c s) ∧ TextHistory c s ∧
    writeText (links c) [66, 0, 67] s = some o ∧ o.res = .ok 1 ∧
    ∀ fuel, 2 ≤ fuel → readText (links c) fuel 1 o.st = some (.error (.notExists 3)) := by
  have h1 : (writeText (links cfgCap) [66, 0, 67] (store0 cfgCap)).map (·.res) = some (.ok 1) := by decide +kernel
  have h2 : ((writeText (links cfgCap) [66, 0, 67] (store0 cfgCap)).bind fun o =>
      customSingle (links cfgCap) o.st [cfgCap.consts.any, 1, cfgCap.consts.any]) = some (some ⟨5, 1, 2⟩) := by
    decide +kernel
  have h3 : ((writeText (links cfgCap) [66, 0, 67] (store0 cfgCap)).bind fun o =>
      customSingle (links cfgCap) o.st [cfgCap.consts.any, 2, cfgCap.consts.any]) = some (some ⟨6, 2, 3⟩) := by
    decide +kernel
  have h4 : ((writeText (links cfgCap) [66, 0, 67] (store0 cfgCap)).bind fun o => (links cfgCap).tryGetLink o.st 2) =
      some (.ok ⟨2, 2, 66⟩) := by decide +kernel
  have h5 : ((writeText (links cfgCap) [66, 0, 67] (store0 cfgCap)).bind fun o => (links cfgCap).tryGetLink o.st 3) =
      some (.error (.notExists 3)) := by decide +kernel
  cases h : writeText (links cfgCap) [66, 0, 67] (store0 cfgCap) with
  | none => rw [h] at h1; cases h1
  | some o =>
    rw [h] at h1 h2 h3 h4 h5
    simp only [Option.bind_some] at h2 h3 h4 h5
    refine ⟨cfgCap, store0 cfgCap, o, cfgCap_ok, fun s h => cfgCap_grow_text h, store0_text, h, Option.some.inj h1, ?_⟩
    intro fuel hf
    obtain ⟨n, rfl⟩ : ∃ n, fuel = n + 2 := ⟨fuel - 2, by omega⟩
    have e2 : readText (links cfgCap) (n + 1) 2 o.st = some (.error (.notExists 3)) := by
      unfold readText
      rw [show ((links cfgCap).consts o.st).any = cfgCap.consts.any from rfl, h3]
      simp only [Option.bind_some, h5]
    unfold readText
    rw [show ((links cfgCap).consts o.st).any = cfgCap.consts.any from rfl, h2]
    simp only [Option.bind_some, h4, e2, Option.map_some, Except.map]

end Verif.Split.Props
