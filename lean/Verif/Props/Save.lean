import Verif.Props.Provider
/-
C53: saving, and loading what was saved.
-/
namespace Verif
namespace Store
variable {α κ : Type}

/-- Loading a map equal to the nested form of `flat`, without prefix. -/
theorem load_nested (str : κ → Str) {d : Char} {fl : Bool} {flat : SMap α κ} (g2 : (flat.map (·.1)).Nodup)
    (hk1 : ∀ k x, (k, x) ∈ flat → ([] ∉ splitOn d k ∧ ' ' ∉ k ∧ plainVal fl x = true))
    (hk2 : ∀ k x, (k, x) ∈ flat → ∀ a ∈ flat, splitOn d a.1 <+: splitOn d k → a.1 = k)
    (hroute : ∀ k x, (k, x) ∈ flat → NoRoute d k)
    {m' : SMap α κ} (hm : SameMap (splitCompactKeys d flat) m') (hu : uniqM m')
    {s : Store α κ} (hs : s.loading = false) (h : Reach (NoRoute s.view.delim) s.tree) (hd : s.view.delim = d) (hpre : s.view.pre = [])
    (flt : Option Bool) (hfl : flt.getD s.flatten = fl) (r : View) (hr : r.delim = d) (p : Str) :
    (s.load str none flt (.once (some m'))).2.2 = true ∧
    (∀ x, (r.full p, x) ∈ flat → r.mustGet (s.load str none flt (.once (some m'))).1.tree p = .ok x) ∧
    (∀ c, s.tree.contents (r.full p) = some c → (∀ x, (r.full p, x) ∉ flat) →
      r.mustGet (s.load str none flt (.once (some m'))).1.tree p = r.mustGet s.tree p) := by
  have hv : ∀ a ∈ flat, a.2.isMap = false := by
    rintro ⟨k, x⟩ ha
    exact plain_nomap (hk1 k x ha).2.2
  have hst : ∀ ks y, status m' ks = some (some y) ↔ ∃ k, (k, y) ∈ flat ∧ ks = splitOn d k := by
    intro ks y
    rw [← hm ks, C20_values d g2 hv ks y]
    constructor
    · rintro ⟨k, a1, a2, -⟩; exact ⟨k, a1, a2⟩
    · rintro ⟨k, a1, a2⟩; exact ⟨k, a1, a2, hk2 k y a1⟩
  obtain ⟨l1, l2⟩ := leavesM_status fl str m' hu (fun ks y hy => by
    obtain ⟨k, a1, -⟩ := (hst ks y).mp hy
    exact leaves_plain (hk1 k y a1).2.2)
  have hjoin : ∀ k x, (k, x) ∈ flat → leafKey d [] (splitOn d k) = k := by
    intro k x hx
    obtain ⟨b1, b2, -⟩ := hk1 k x hx
    unfold leafKey
    have : joinSpec d ([] :: splitOn d k) = k := by
      rw [joinSpec_eq, List.filter_cons_of_neg (by simp), List.filter_eq_self.mpr, joinWith_splitOn]
      intro w hw
      simp only [decide_eq_true_eq]
      rintro rfl
      exact b1 hw
    rw [this]
    have := keyOf_nospace (v := View.new d) (p := k) (by simpa [View.full, View.new] using b2)
    simpa [keyOf, View.dash, View.full, View.new] using this
  have hL : ∀ l y, (l, y) ∈ leavesM fl str m' → ∃ k, (k, y) ∈ flat ∧ l = splitOn d k ∧ leafKey d [] l = k := by
    intro l y hl
    obtain ⟨k, a1, a2⟩ := (hst l y).mp ((l1 l y).mp hl)
    exact ⟨k, a1, a2, by rw [a2]; exact hjoin k y a1⟩
  have hne : fl = true → keysNEM str m' := by
    intro hfl
    refine keysNEM_status str m' hu ?_ ?_
    · intro ks st hst'
      have : ks = [] ∨ ∃ k x, (k, x) ∈ flat ∧ ks <+: splitOn d k := by
        cases st with
        | none =>
          rw [← hm ks, (splitCompactKeys_spec d flat g2 hv).dir] at hst'
          rcases hst'.1 with e | ⟨a, ha, hp⟩
          · exact .inl e
          · obtain ⟨⟨k, x⟩, hb, rfl⟩ := List.mem_map.mp ha
            exact .inr ⟨k, x, hb, hp⟩
        | some y =>
          obtain ⟨k, a1, a2⟩ := (hst ks y).mp hst'
          exact .inr ⟨k, y, a1, a2 ▸ List.prefix_refl _⟩
      rcases this with rfl | ⟨k, x, hx, hp⟩
      · simp
      · exact fun h' => (hk1 k x hx).1 (hp.subset h')
    · intro ks y hy
      obtain ⟨k, a1, -⟩ := (hst ks y).mp hy
      have := (hk1 k y a1).2.2
      exact plain_keysNE (hfl ▸ this)
  have hnd : ((leavesM fl str m').map (fun a => leafKey d [] a.1)).Nodup := by
    have : (leavesM fl str m').map (fun a => leafKey d [] a.1) =
        ((leavesM fl str m').map (·.1)).map (joinWith d) := by
      rw [List.map_map]
      refine List.map_congr_left ?_
      rintro ⟨l, y⟩ hl
      obtain ⟨k, a1, a2, a3⟩ := hL l y hl
      simp only [Function.comp, a3]
      rw [a2, joinWith_splitOn]
    refine (congrArg List.Nodup this).mpr ?_
    refine List.Nodup.map_on ?_ l2
    intro a ha b hb e
    obtain ⟨⟨l, y⟩, hl, rfl⟩ := List.mem_map.mp ha
    obtain ⟨⟨l', y'⟩, hl', rfl⟩ := List.mem_map.mp hb
    obtain ⟨k, a1, a2, -⟩ := hL l y hl
    obtain ⟨k', a1', a2', -⟩ := hL l' y' hl'
    simp only at e ⊢
    rw [a2, a2', joinWith_splitOn, joinWith_splitOn] at e
    rw [a2, a2', e]
  have hat : s.loadAt none = [] := by simp [loadAt, hpre]
  obtain ⟨q1, q2⟩ := C29_load str hs h none flt (.once (some m'))
    (L := leavesM fl str m') (by rw [hfl]; rfl) (by rw [hfl]; exact hne) (fun l y hl => by
      obtain ⟨k, a1, a2, a3⟩ := hL l y hl
      rw [hat, hd, a3]; exact hroute k y a1) (by rw [hat, hd]; exact hnd) r (hr.trans hd.symm) p
  obtain ⟨s', e, -⟩ := C29_load_is_sets str s hs none flt (.once (some m'))
      (L := leavesM fl str m') (by rw [hfl]; rfl) (by rw [hfl]; exact hne)
  rw [hat, hd] at q1 q2
  refine ⟨by rw [e], ?_, ?_⟩
  · intro x hx
    exact q1 (splitOn d (r.full p)) x ((l1 _ _).mpr ((hst _ _).mpr ⟨_, hx, rfl⟩)) (hjoin _ x hx).symm
  · intro c hc hx
    refine q2 c hc (fun l x hl e => ?_)
    obtain ⟨k, a1, a2, a3⟩ := hL l x hl
    rw [a3] at e
    exact hx x (e ▸ a1)

/-- What `GetM("", filter, WithoutFlattenKeys)` of a store without prefix gives. -/
theorem getM_sel {P : Str → Prop} {v : View} {t : Tree (Any α κ)} (h : Reach P t) (hpre : v.pre = []) (o : MOpts α κ) (ho : o.noFlatten = true)
    (f : Core (Any α κ) → Bool) (hf : ∀ n, o.pass n = f n.core) :
    ∃ flat : SMap α κ, v.getM t [] o = .ok (some (splitCompactKeys v.delim flat)) ∧ (flat.map (·.1)).Nodup ∧
      ∀ k x, (k, x) ∈ flat ↔ ∃ c, t.contents k = some c ∧ c.leaf = true ∧ f c = true ∧ endsW v.delim k = false ∧ c.data = x := by
  obtain ⟨h1, h2⟩ := getM_root h hpre o
  rw [ho, if_pos rfl] at h1
  exact ⟨_, h1, h2, mem_selected h v.delim o f hf⟩

theorem splitOn_ne_nil (d : Char) (k : Str) : splitOn d k ≠ [] := by
  intro e
  have := joinWith_splitOn d k
  rw [e] at this
  subst this
  cases e

theorem mput_ne (m : SMap α κ) (k : Str) (x : Any α κ) : mput m k x ≠ [] := by
  intro e
  have := mget_mput m k k x
  rw [e] at this
  simp [mget, assoc] at this

theorem submap_ne (m : SMap α κ) {ks : List Str} (h : ks ≠ []) (x : Any α κ) : submap m ks x ≠ [] := by
  match ks, h with
  | [k], _ => exact mput_ne _ _ _
  | k :: k2 :: rest, _ =>
    simp only [submap]
    split
    · exact mput_ne _ _ _
    · rintro rfl
      simp_all [mget, assoc]
    · exact mput_ne _ _ _

theorem splitCompactKeys_ne {d : Char} {flat : SMap α κ} (h : flat ≠ []) : splitCompactKeys d flat ≠ [] := by
  induction flat using List.reverseRecOn with
  | nil => exact absurd rfl h
  | append_singleton flat a _ =>
    simp only [splitCompactKeys, List.foldl_append, List.foldl_cons, List.foldl_nil]
    split
    · exact submap_ne _ (splitOn_ne_nil _ _) _
    · exact mput_ne _ _ _

/-- The entries that are saved: leaf entries selected by `f` whose path does not end with the delimiter. -/
def Saved (f : Core (Any α κ) → Bool) (v : View) (t : Tree (Any α κ)) (k : Str) (c : Core (Any α κ)) : Prop :=
  t.contents k = some c ∧ c.leaf = true ∧ f c = true ∧ endsW v.delim k = false

/-- A codec and provider pair gives the bytes `b` back. -/
def Delivers (opts : List (LoadOpt α κ)) (c : Codec α κ) (b : Bytes) : Prop :=
  ∃ p o, lastProvider opts = some p ∧ p.err = some .notImpl ∧ p.data = none ∧ p.once = some o ∧ o.readBytes = (b, none) ∧
    (lastCodec opts <|> p.codec) = some c

theorem save_load (json : Bytes → Option (Option (SMap α κ))) (str : κ → Str) {v : View} {t : Tree (Any α κ)}
    (h : Reach (NoRoute v.delim) t) (hpre : v.pre = []) (o : MOpts α κ) (ho : o.noFlatten = true)
    (f : Core (Any α κ) → Bool) (hf : ∀ n, o.pass n = f n.core) (fl : Bool)
    (hkey : ∀ k c, Saved f v t k c → ([] ∉ splitOn v.delim k ∧ ' ' ∉ k ∧ plainVal fl c.data = true) ∧
      ∀ k' c', Saved f v t k' c' → splitOn v.delim k' <+: splitOn v.delim k → k' = k)
    (hex : ∃ k c, Saved f v t k c) :
    ∃ m, v.getM t [] o = .ok (some m) ∧ m ≠ [] ∧
      ∀ (c : Codec α κ) b m', c.dec b = some (some m') → SameMap m m' → uniqM m' →
        ∀ {s : Store α κ} {opts : List (LoadOpt α κ)}, s.loading = false → Reach (NoRoute s.view.delim) s.tree → s.view.delim = v.delim → s.view.pre = [] →
          Delivers opts c b → lastPrefix opts = none → (lastFlatten opts).getD s.flatten = fl →
          (s.loadWith json str opts).ok = true ∧ ∀ (r : View) p, r.delim = v.delim →
            (∀ e, Saved f v t (r.full p) e → r.mustGet (s.loadWith json str opts).store.tree p = .ok e.data) ∧
            (∀ e, s.tree.contents (r.full p) = some e → (∀ e', ¬ Saved f v t (r.full p) e') →
              r.mustGet (s.loadWith json str opts).store.tree p = r.mustGet s.tree p) := by
  obtain ⟨flat, g1, g2, g3⟩ := getM_sel h hpre o ho f hf
  have hsv : ∀ k x, (k, x) ∈ flat ↔ ∃ c, Saved f v t k c ∧ c.data = x := by
    intro k x
    rw [g3]
    constructor
    · rintro ⟨c, a1, a2, a3, a4, a5⟩; exact ⟨c, ⟨a1, a2, a3, a4⟩, a5⟩
    · rintro ⟨c, ⟨a1, a2, a3, a4⟩, a5⟩; exact ⟨c, a1, a2, a3, a4, a5⟩
  refine ⟨_, g1, ?_, ?_⟩
  · apply splitCompactKeys_ne
    obtain ⟨k, c, hc⟩ := hex
    exact List.ne_nil_of_mem ((hsv k c.data).mpr ⟨c, hc, rfl⟩)
  intro c b m' hdec hm hu s opts hs hr hd hp ⟨p, on, q1, q2, q3, q4, q5, q6⟩ hpx hfl
  have hl := fun r hr' p => load_nested str g2 (d := v.delim) (fl := fl)
    (fun k x hx => by
      obtain ⟨c, hc, rfl⟩ := (hsv k x).mp hx
      exact (hkey k c hc).1)
    (fun k x hx a ha => by
      obtain ⟨c, hc, rfl⟩ := (hsv k x).mp hx
      obtain ⟨c', hc', -⟩ := (hsv a.1 a.2).mp ha
      exact (hkey k c hc).2 a.1 c' hc')
    (fun k x hx => by
      obtain ⟨c, hc, rfl⟩ := (hsv k x).mp hx
      exact h.plain k c hc.1) hm hu hs hr hd hp (lastFlatten opts) hfl r hr' p
  have hsrc : source json (lastCodec opts) p = .once (some m') := by
    have hd' : decoder json (lastCodec opts) p = c.dec := by
      unfold decoder
      cases hcc : lastCodec opts with
      | some c' => simp [hcc] at q6; rw [q6]
      | none =>
        simp [hcc] at q6
        simp [q6]
    simp [source, q2, q4, q5, hd', hdec]
  obtain ⟨e1, -, e3, -⟩ := C52_load json str hs opts q1 (fun _ => q3)
  rw [hsrc, hpx] at e1 e3
  refine ⟨by rw [e3]; exact (hl v rfl []).1, fun r p hr' => ?_⟩
  rw [e1]
  obtain ⟨-, l2, l3⟩ := hl r hr' p
  refine ⟨fun e he => l2 _ ((hsv _ _).mpr ⟨e, he, rfl⟩), fun e he hno => l3 e he (fun x hx => ?_)⟩
  obtain ⟨e', he', -⟩ := (hsv _ _).mp hx
  exact hno e' he'

/-- **C53** `Save` when no entry was modified since it was loaded: nothing is encoded or written, and there is no error. -/
theorem C53_nothing {P : Str → Prop} {l : Loader α κ} {t : Tree (Any α κ)} (h : Reach P t) (hpre : l.st.view.pre = [])
    (hno : ∀ k c, ¬ Saved (·.modified) l.st.view t k c) : l.save t = .ok (none, true) := by
  obtain ⟨flat, g1, -, g3⟩ := getM_sel h hpre ⟨false, true, some (fun n => n.core.modified)⟩ rfl (·.modified) (fun _ => rfl)
  have he : flat = [] := by
    rw [List.eq_nil_iff_forall_not_mem]
    rintro ⟨k, x⟩ hx
    obtain ⟨c, a1, a2, a3, a4, -⟩ := (g3 k x).mp hx
    exact hno k c ⟨a1, a2, a3, a4⟩
  subst he
  simp only [Loader.save]
  split
  · simp only [saveMap, g1]; rfl
  · rfl

/-- **C53** `Save` encodes the modified entries with the codec of the load and hands the bytes to the provider of the load; an error of
either is reported, and then nothing was written. -/
theorem C53_outcome {P : Str → Prop} {l : Loader α κ} {t : Tree (Any α κ)} (h : Reach P t) (hpre : l.st.view.pre = [])
    (hex : ∃ k c, Saved (·.modified) l.st.view t k c) {c : Codec α κ} {p : Provider α κ} {o : Once}
    (hc : l.codec = some c) (hp : l.prov = some p) (ho : p.once = some o) (hwr : p.writer = none) :
    ∃ m, ({ l.st with tree := t } : Store α κ).saveMap = .ok (some m) ∧
      (∀ b, c.enc m = some b → o.write b = none → l.save t = .ok (some b, true)) ∧
      ((c.enc m = none ∨ ∃ b e, c.enc m = some b ∧ o.write b = some e) → l.save t = .ok (none, false)) := by
  obtain ⟨flat, g1, -, g3⟩ := getM_sel h hpre ⟨false, true, some (fun n => n.core.modified)⟩ rfl (·.modified) (fun _ => rfl)
  have hne : splitCompactKeys l.st.view.delim flat ≠ [] := by
    apply splitCompactKeys_ne
    obtain ⟨k, c, a1, a2, a3, a4⟩ := hex
    exact List.ne_nil_of_mem ((g3 k c.data).mpr ⟨c, a1, a2, a3, a4, rfl⟩)
  refine ⟨_, g1, ?_, ?_⟩
  · intro b hb hw
    simp only [Loader.save, hc, hp, saveMap, g1, Loader.write, hne, if_false, hb, ho, hw]
  · rintro (hb | ⟨b, e, hb, hw⟩)
    · simp only [Loader.save, hc, hp, saveMap, g1, Loader.write, hne, if_false, hb]
    · cases e <;> simp only [Loader.save, hc, hp, saveMap, g1, Loader.write, hne, if_false, hb, ho, hw, hwr]

/-- **C53** What `Save` wrote can be loaded into any store without prefix (with the same delimiter): every modified entry reads back, and
the other entries of that store keep their values. Partial: the loader has no prefix (`C53_prefix_fails`); saved paths have no empty
component and no blank, none is a component-prefix of another, and the values are such that `Load` stores them as they are (see C38). The
codec has to give back an equal map. -/
theorem C53_save_load_partial (json : Bytes → Option (Option (SMap α κ))) (str : κ → Str) {l : Loader α κ} {t : Tree (Any α κ)}
    (h : Reach (NoRoute l.st.view.delim) t) (hpre : l.st.view.pre = []) (fl : Bool)
    (hkey : ∀ k c, Saved (·.modified) l.st.view t k c → ([] ∉ splitOn l.st.view.delim k ∧ ' ' ∉ k ∧ plainVal fl c.data = true) ∧
      ∀ k' c', Saved (·.modified) l.st.view t k' c' → splitOn l.st.view.delim k' <+: splitOn l.st.view.delim k → k' = k)
    (hex : ∃ k c, Saved (·.modified) l.st.view t k c) {c : Codec α κ} {p : Provider α κ} {o : Once}
    (hc : l.codec = some c) (hp : l.prov = some p) (ho : p.once = some o) :
    ∃ m, ({ l.st with tree := t } : Store α κ).saveMap = .ok (some m) ∧
      ∀ b m', c.enc m = some b → o.write b = none → c.dec b = some (some m') → SameMap m m' → uniqM m' →
        l.save t = .ok (some b, true) ∧
        ∀ {s : Store α κ} {opts : List (LoadOpt α κ)}, s.loading = false → Reach (NoRoute s.view.delim) s.tree →
          s.view.delim = l.st.view.delim → s.view.pre = [] → Delivers opts c b → lastPrefix opts = none →
          (lastFlatten opts).getD s.flatten = fl →
          (s.loadWith json str opts).ok = true ∧ ∀ (r : View) q, r.delim = l.st.view.delim →
            (∀ e, Saved (·.modified) l.st.view t (r.full q) e → r.mustGet (s.loadWith json str opts).store.tree q = .ok e.data) ∧
            (∀ e, s.tree.contents (r.full q) = some e → (∀ e', ¬ Saved (·.modified) l.st.view t (r.full q) e') →
              r.mustGet (s.loadWith json str opts).store.tree q = r.mustGet s.tree q) := by
  obtain ⟨m, g1, g2, g3⟩ := save_load json str h hpre ⟨false, true, some (fun n => n.core.modified)⟩ rfl (·.modified) (fun _ => rfl) fl hkey hex
  refine ⟨m, g1, fun b m' hb hw hd hs hu => ⟨?_, fun a1 a2 a3 a4 a5 a6 a7 => g3 c b m' hd hs hu a1 a2 a3 a4 a5 a6 a7⟩⟩
  simp only [Loader.save, hc, hp, saveMap, g1, Loader.write, g2, if_false, hb, ho, hw]

/-- **C53** The same for `SaveAs`, which writes all leaf entries, to a provider and codec given to it. Partial as above. -/
theorem C53_saveAs_load_partial (json : Bytes → Option (Option (SMap α κ))) (str : κ → Str) {l : Loader α κ} {t : Tree (Any α κ)}
    (h : Reach (NoRoute l.st.view.delim) t) (hpre : l.st.view.pre = []) (fl : Bool)
    (hkey : ∀ k c, Saved (fun _ => true) l.st.view t k c → ([] ∉ splitOn l.st.view.delim k ∧ ' ' ∉ k ∧ plainVal fl c.data = true) ∧
      ∀ k' c', Saved (fun _ => true) l.st.view t k' c' → splitOn l.st.view.delim k' <+: splitOn l.st.view.delim k → k' = k)
    (hex : ∃ k c, Saved (fun _ => true) l.st.view t k c) {co : Option (Codec α κ)} {c : Codec α κ} {p : Provider α κ} {o : Once}
    (hc : (co <|> p.codec) = some c) (ho : p.once = some o) :
    ∃ m, l.st.view.getM t [] ⟨false, true, none⟩ = .ok (some m) ∧
      ∀ b m', c.enc m = some b → o.write b = none → c.dec b = some (some m') → SameMap m m' → uniqM m' →
        l.saveAs t co (some p) = .ok (some b, true) ∧
        ∀ {s : Store α κ} {opts : List (LoadOpt α κ)}, s.loading = false → Reach (NoRoute s.view.delim) s.tree →
          s.view.delim = l.st.view.delim → s.view.pre = [] → Delivers opts c b → lastPrefix opts = none →
          (lastFlatten opts).getD s.flatten = fl →
          (s.loadWith json str opts).ok = true ∧ ∀ (r : View) q, r.delim = l.st.view.delim →
            (∀ e, Saved (fun _ => true) l.st.view t (r.full q) e → r.mustGet (s.loadWith json str opts).store.tree q = .ok e.data) ∧
            (∀ e, s.tree.contents (r.full q) = some e → (∀ e', ¬ Saved (fun _ => true) l.st.view t (r.full q) e') →
              r.mustGet (s.loadWith json str opts).store.tree q = r.mustGet s.tree q) := by
  obtain ⟨m, g1, g2, g3⟩ := save_load json str h hpre ⟨false, true, none⟩ rfl (fun _ => true) (fun _ => rfl) fl hkey hex
  refine ⟨m, g1, fun b m' hb hw hd hs hu => ⟨?_, fun a1 a2 a3 a4 a5 a6 a7 => g3 c b m' hd hs hu a1 a2 a3 a4 a5 a6 a7⟩⟩
  have hc' : (if co.isNone then p.codec else co) = some c := by
    cases co <;> simpa using hc
  simp only [Loader.saveAs, hc', g1, Loader.write, g2, if_false, hb, ho, hw]

/-! ## Deviations -/

/-- After a `Load` with prefix "app" the `Writeable` saves every modified entry of the whole tree under a key that lacks the prefix and
one rune more. -/
theorem C53_prefix_fails : ∃ (s : S0) (l : Loader Nat Nat) (t : Tree (Any Nat Nat)), s = S0.new false ∧
    (s.loadWith (fun _ => none) itoa [.provider { noProv with once := some ⟨([1], none), fun _ => none⟩, codec := some exCodec },
      .storePrefix "app".toList]).wr = some l ∧
    t = (sset (sset { s with tree := l.self.tree } "app.debug" 1) "zzz.other" 2).tree ∧
    mkeys ({ l.st with tree := t } : S0).saveMap = ["ebug".toList, "ther".toList] :=
  ⟨_, _, _, rfl, rfl, rfl, by decide +kernel⟩

section examples
/-- A codec that can encode just the map below, a file with it, and a change made after loading it. -/
def exMap : SMap Nat Nat := [("app".toList, .map [("debug".toList, .atom 7), ("name".toList, .atom 3)])]
def exC : Codec Nat Nat := ⟨fun b => if b = [1] then some (some exMap) else if b = [2] then some (some [("app".toList, .map [("debug".toList, .atom 9)])]) else none,
  fun m => match m with
    | [(_, .map [(_, .atom 9)])] => some [2]
    | _ => none⟩
def exP (b : Bytes) : Provider Nat Nat := { noProv with once := some ⟨(b, none), fun _ => none⟩, codec := some exC }
def exL : Store.Loaded Nat Nat := (S0.new false).loadWith (fun _ => none) itoa [.provider (exP [1])]
def exT : Tree (Any Nat Nat) := (sset exL.store "app.debug" 9).tree
/-- Only the changed entry is saved, and it is read back; loading the file into a store with another entry keeps that. -/
example : (match exL.wr with
      | some l => (match l.save exT with | .ok r => decide (r = (some [2], true)) | .error _ => false)
      | none => false) = true ∧
    (let s := ((sset (sset (S0.new false) "app.debug" 1) "app.name" 4).loadWith (fun _ => none) itoa [.provider (exP [2])])
     isAtom 9 (s.store.mustGet "app.debug".toList) = true ∧ isAtom 4 (s.store.mustGet "app.name".toList) = true) := by
  decide +kernel
/-- The conditions on the saved entries hold there: it is just one. -/
example : (exT.root.entries []).filterMap (fun a => if a.2.leaf && a.2.modified then some a.1 else none) = ["app.debug".toList] := by
  decide +kernel
end examples

end Store
end Verif
