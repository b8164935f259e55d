import Verif.Convert.ProducerChain

/-! C100: the blocks of text given to a producer, as they are shown at the other end of the chain. -/
namespace Verif.Convert

open Verif.Doc Verif.Time Verif.Node

/-- A produced document as a consumer gets it (node/producer.py:73-113, node/consumer.py:39-40): it belongs to the producer's sequence, with
local clock times and without availability time. -/
def liveDoc (sid : String) (p : Produced) : CDoc :=
  { doc := { uid := p.num, seqId := sid, num := p.num, timeBase := "clock", clockMode := some "local", agid := none, cbegin := 0, cend := none }
    avail := none
    times := fun a => match validateDoc a p.body with
      | .ok (.elem x _) => (x.comp.b, x.comp.e)
      | _ => (a, none) }

/-- Specification: the documents delivered in a course of events, with the times of delivery. -/
def deliveredAt (evs : List REv) : List (Int × CDoc) :=
  evs.filterMap (fun e => match e with
    | .deliver now (some d) => some (now, d)
    | _ => none)

/-- What the segmenter knows of a document that came at `now`: its body, that time as availability time, and what it makes of the
fixed head (node/producer.py:76-91). -/
def liveSource (rd : Reader) (ref : Win → Name → Option Name) (styles regions : Win → Option (List Name)) (got : List (Int × Produced))
    (d : Seq.Doc) : Source :=
  match got.find? (fun x => x.2.num == d.num) with
  | some x => { root := x.2.body, avail := x.1, base := .clock, rd := rd, ref := ref, styles := styles, regions := regions }
  | none => { root := .br, avail := 0, base := .clock, rd := rd, ref := ref, styles := styles, regions := regions }

/-- Specification: when what was produced at `now` is to be shown: from one second later on, in whole milliseconds. -/
def showFrom (now : Int) : Int := toMs (now + 1000000)

theorem runP_nil (rd : Reader) : ∀ (ts : List Int) (last : Nat), (runP rd ⟨last, some []⟩ ts).2.filterMap id = []
  | [], _ => rfl
  | t :: ts, last => by
    have hp : produce rd t ⟨last, some []⟩ = (⟨last, some []⟩, none) := rfl
    simp only [runP, hp, List.filterMap_cons, id]
    exact runP_nil rd ts last

/-- What a producer sends. -/
theorem sent_form (rd : Reader) (hrd : rd.Accurate) : ∀ (ts : List Int) (last : Nat) (blocks : List (List (List Char))),
    (∀ t ∈ ts, 0 ≤ t ∧ t < 359999000000) → (∀ b ∈ blocks, b ≠ []) →
    ((runP rd ⟨last, some blocks⟩ ts).2.filterMap id).Pairwise (fun a b => a.num < b.num) ∧
    ∀ p ∈ (runP rd ⟨last, some blocks⟩ ts).2.filterMap id, ∃ i lines now b d c, p.num = last + 1 + i ∧ blocks[i]? = some lines ∧
      ts[i]? = some now ∧ interleave lines = some c ∧ b.delta = showFrom now ∧ d.delta = 1000000 ∧ p.body = madeBody b d c
  | [], last, blocks, _, _ => by simp [runP]
  | t :: ts, last, [], _, _ => by rw [runP_nil]; simp
  | t :: ts, last, lines :: bs, ht, hb => by
    obtain ⟨h1, h2⟩ := sent_form rd hrd ts (last + 1) bs (fun x hx => ht x (List.mem_cons_of_mem _ hx))
      (fun x hx => hb x (List.mem_cons_of_mem _ hx))
    have htm := ht t List.mem_cons_self
    obtain ⟨tb, _, hlb⟩ := limitedClock_some rd hrd (t + 1000000) (by omega) (by omega)
    obtain ⟨td, _, hld⟩ := limitedClock_some rd hrd 1000000 (by omega) (by omega)
    obtain ⟨c, hc, _⟩ := interleave_some lines (hb lines List.mem_cons_self)
    have hp : produce rd t ⟨last, some (lines :: bs)⟩ =
        (⟨last + 1, some bs⟩, some ⟨last + 1, madeBody ⟨tb, toMs (t + 1000000)⟩ ⟨td, toMs 1000000⟩ c⟩) := by
      simp only [produce, nextLines, hc, hlb, hld]
      rfl
    simp only [runP, hp, List.filterMap_cons, id]
    have hlt : ∀ p ∈ (runP rd ⟨last + 1, some bs⟩ ts).2.filterMap id, last + 1 < p.num := by
      intro p hp
      obtain ⟨i, _, _, _, _, _, hn, _⟩ := h2 p hp
      omega
    refine ⟨List.pairwise_cons.2 ⟨hlt, h1⟩, ?_⟩
    intro p hp
    rcases List.mem_cons.1 hp with rfl | hp
    · exact ⟨0, lines, t, _, _, c, rfl, rfl, rfl, hc, rfl, rfl, rfl⟩
    · obtain ⟨i, l, now, b, d, c, hn, g1, g2, g3⟩ := h2 p hp
      exact ⟨i + 1, l, now, b, d, c, by omega, g1, g2, g3⟩

theorem deliveries_at (evs : List REv) : deliveries evs = (deliveredAt evs).map (fun x => arrived x.1 x.2) := by
  unfold deliveries deliveredAt
  rw [List.map_filterMap]
  congr 1
  funext e
  cases e with
  | tick => rfl
  | deliver now d => cases d <;> rfl

theorem segmentOf_avail {a b : Source} (h : b = { a with avail := b.avail }) (hv : validateDoc a.avail a.root = validateDoc b.avail b.root)
    (num : Nat) (w : Win) : segmentOf a num w = segmentOf b num w := by
  unfold segmentOf
  rw [hv]
  rw [h]
  rfl

/-- Specification: when a document was delivered, by its number. -/
def gotAt (evs : List REv) : List (Int × Nat) := (deliveredAt evs).map (fun x => (x.1, x.2.doc.num))

/-- C100, with what it is derived from: the documents that arrive are in sequence order and meet the conditions of C99. -/
theorem live_run (rd : Reader) (hrd : rd.Accurate) (ts : List Int) (hts : ∀ t ∈ ts, 0 ≤ t ∧ t < 359999000000)
    (blocks : List (List (List Char))) (hbl : ∀ b ∈ blocks, b ≠ [] ∧ ∀ l ∈ b, LineShown l = true)
    (sid : String) (got : List (Int × Produced)) (hgot : (got.map (·.2)).Sublist ((runP rd ⟨0, some blocks⟩ ts).2.filterMap id))
    (harr : ∀ x ∈ got, 0 ≤ x.1 ∧ ∀ now, ts[x.2.num - 1]? = some now →
      x.1 ≤ showFrom now ∨ x.1 % 1000 = 0 ∧ x.1 < showFrom now + 1000000)
    (evs : List REv) (hevs : deliveredAt evs = got.map (fun x => (x.1, liveDoc sid x.2)))
    (ref : Win → Name → Option Name) (styles regions : Win → Option (List Name))
    (href : ∀ w, (ref w "defaultStyle1".toList).isSome = true ∧ (ref w "bottomRegion".toList).isSome = true)
    (discard : Bool) (start len : Int) (hl : 0 < len) (hms : start % 1000 = 0 ∧ len % 1000 = 0)
    (m : Media) (hmr : m.rd.Accurate) (hmb : m.base = .clock) (hz0 : 0 ≤ m.zero ∧ m.zero % 1000 = 0 ∧ m.zero ≤ start)
    (fin : Int) (hfin : fin = start + ticksAfterFirst evs * len) (htop : fin < 100 * 3600000000)
    (ex : Seq.State → Int → Int → Option (Option SDoc) × Seq.State) (hex : ex = extract (liveSource rd ref styles regions got) discard)
    (segs : List (RSeg (Option SDoc))) (hsegs : segs = (runR ex len { lastEnd := start } evs).2) :
    (∃ src0 : Seq.Doc → Source, ex = extract src0 discard ∧ InSeq ⟨sid, "clock", some "local"⟩ none (deliveries evs) ∧
      ∀ d ∈ deliveries evs, (src0 d).Sound d fin ∧ lined true (src0 d).root = true ∧ flat (src0 d).root = true ∧ (src0 d).base = m.base) ∧
    segs.length = ticksAfterFirst evs ∧
    ∀ u, 0 ≤ u →
      (start ≤ u + m.zero ∧ u + m.zero < fin →
        ∃ k st, evs[k]? = some .tick ∧ st = (runR ex len { lastEnd := start } (evs.take k)).1 ∧
          st.lastEnd ≤ u + m.zero ∧ u + m.zero < st.lastEnd + len ∧
          (∀ (i : Nat) lines now arr, blocks[i]? = some lines → ts[i]? = some now → (arr, i + 1) ∈ gotAt (evs.take k) →
            max (showFrom now) arr ≤ u + m.zero →
            (∀ (j : Nat) later arr', i < j → ts[j]? = some later → (arr', j + 1) ∈ gotAt (evs.take k) →
              u + m.zero < max (showFrom later) arr') →
            linesAll m segs u = if u + m.zero < showFrom now + 1000000 then [(lines.map Item.text).intersperse .br] else []) ∧
          ((∀ (j : Nat) later arr, ts[j]? = some later → (arr, j + 1) ∈ gotAt (evs.take k) → u + m.zero < max (showFrom later) arr) →
            linesAll m segs u = [])) ∧
      (¬(start ≤ u + m.zero ∧ u + m.zero < fin) → linesAll m segs u = []) := by
  obtain ⟨hpw, hform⟩ := sent_form rd hrd ts 0 blocks hts (fun b hb => (hbl b hb).1)
  have hshift : m.shift = m.zero := by simp [Media.shift, hmb]
  -- the documents that arrived
  have hgform : ∀ x ∈ got, ∃ i lines now b d c, x.2.num = i + 1 ∧ blocks[i]? = some lines ∧ ts[i]? = some now ∧
      interleave lines = some c ∧ b.delta = showFrom now ∧ d.delta = 1000000 ∧ x.2.body = madeBody b d c := by
    intro x hx
    obtain ⟨i, lines, now, b, d, c, h1, h2⟩ := hform x.2 (hgot.subset (List.mem_map_of_mem hx))
    exact ⟨i, lines, now, b, d, c, by omega, h2⟩
  have hpos : ∀ (i : Nat) now, ts[i]? = some now → 0 < showFrom now ∧ showFrom now % 1000 = 0 := by
    intro i now h
    have := hts now (List.mem_of_getElem? h)
    unfold showFrom toMs
    omega
  have hgpw : got.Pairwise (fun a b => a.2.num < b.2.num) := by
    have := hpw.sublist hgot
    rwa [List.pairwise_map] at this
  have hfind : ∀ x ∈ got, got.find? (fun y => y.2.num == x.2.num) = some x := by
    intro x hx
    clear hgform harr hevs hsegs hex hgot
    induction got with
    | nil => simp at hx
    | cons y ys ih =>
      rw [List.pairwise_cons] at hgpw
      rw [List.find?_cons]
      rcases List.mem_cons.1 hx with rfl | hx
      · simp
      · have := hgpw.1 x hx
        rw [show (y.2.num == x.2.num) = false by simp; omega]
        exact ih hgpw.2 hx
  let av : Int × Produced → Int := fun x => if x.1 % 1000 = 0 then x.1 else 0
  have hav : ∀ x ∈ got, 0 ≤ av x ∧ av x % 1000 = 0 := by
    intro x hx
    have := (harr x hx).1
    simp only [av]
    split <;> omega
  have hmax : ∀ x ∈ got, ∀ (i : Nat) now, x.2.num = i + 1 → ts[i]? = some now →
      max (showFrom now) (av x) = max (showFrom now) x.1 ∧ max (showFrom now) x.1 < showFrom now + 1000000 ∧
      (av x = x.1 ∨ x.1 ≤ showFrom now ∧ av x = 0) := by
    intro x hx i now h1 h3
    have ha := harr x hx
    have hb0 := hpos i now h3
    rw [h1, Nat.add_sub_cancel] at ha
    have := ha.2 now h3
    simp only [av]
    split <;> omega
  have hval : ∀ x ∈ got, ∀ (i : Nat) lines now b d c, x.2.num = i + 1 → ts[i]? = some now → interleave lines = some c → b.delta = showFrom now →
      d.delta = 1000000 → x.2.body = madeBody b d c → validateDoc x.1 x.2.body = validateDoc (av x) x.2.body ∧
      validateDoc (av x) x.2.body = .ok (times (av x) 0 none (madeBody b d c)) := by
    intro x hx i lines now b d c h1 h3 h4 h5 h6 h7
    have hb0 := hpos i now h3
    rw [h7]
    refine ⟨?_, validateDoc_eq _ _⟩
    rcases (hmax x hx i now h1 h3).2.2 with h | ⟨h, h'⟩
    · rw [h]
    · rw [h']
      exact made_early b d x.1 (harr x hx).1 (by omega) (by omega) h4
  -- with availability times in whole milliseconds
  let src0 : Seq.Doc → Source := fun d =>
    { liveSource rd ref styles regions got d with
      avail := match got.find? (fun x => x.2.num == d.num) with
        | some x => av x
        | none => 0 }
  have hsame : ∀ d, validateDoc (liveSource rd ref styles regions got d).avail (liveSource rd ref styles regions got d).root =
      validateDoc (src0 d).avail (src0 d).root := by
    intro d
    simp only [src0]
    unfold liveSource
    cases hf : got.find? (fun x => x.2.num == d.num) with
    | none => rfl
    | some x =>
      have hx := List.mem_of_find?_eq_some hf
      obtain ⟨i, lines, now, b, dd, c, h1, h2, h3, h4, h5, h6, h7⟩ := hgform x hx
      exact (hval x hx i lines now b dd c h1 h3 h4 h5 h6 h7).1
  have hext : ex = extract src0 discard := by
    rw [hex]
    have : ∀ q lo hi, extractSegment q (liveSource rd ref styles regions got) lo hi = extractSegment q src0 lo hi := by
      intro q lo hi
      unfold extractSegment
      congr 1
      funext ws
      congr 1
      congr 1
      funext w
      exact segmentOf_avail rfl (hsame w.1) _ _
    funext q lo hi
    unfold extract
    rw [this]
  -- deliveries
  have hdel : deliveries evs = got.map (fun x => arrived x.1 (liveDoc sid x.2)) := by
    rw [deliveries_at, hevs, List.map_map]; rfl
  have harrived : ∀ x ∈ got, ∀ (i : Nat) lines now b d c, x.2.num = i + 1 → ts[i]? = some now → interleave lines = some c → b.delta = showFrom now →
      d.delta = 1000000 → x.2.body = madeBody b d c → arrived x.1 (liveDoc sid x.2) =
        { uid := x.2.num, seqId := sid, num := x.2.num, timeBase := "clock", clockMode := some "local", agid := none,
          cbegin := max (showFrom now) x.1, cend := some (showFrom now + 1000000) } := by
    intro x hx i lines now b d c h1 h3 h4 h5 h6 h7
    obtain ⟨g1, g2⟩ := hval x hx i lines now b d c h1 h3 h4 h5 h6 h7
    have hb0 := hpos i now h3
    have ht : (liveDoc sid x.2).times x.1 = (max (showFrom now) x.1, some (showFrom now + 1000000)) := by
      simp only [liveDoc, g1, g2]
      rw [made_times (av x) b d (by omega) (by omega) h4]
      simp only [h5, h6, (hmax x hx i now h1 h3).1]
    have : (liveDoc sid x.2).avail = none := rfl
    simp only [arrived, this, ht]
    rfl
  have hin : InSeq ⟨sid, "clock", some "local"⟩ none (deliveries evs) := by
    rw [hdel]
    refine ⟨?_, ?_, ?_, ?_⟩
    · rw [List.pairwise_map]
      exact hgpw
    all_goals
      intro d hd
      rw [List.mem_map] at hd
      obtain ⟨x, hx, rfl⟩ := hd
      obtain ⟨i, lines, now, b, dd, c, h1, h2, h3, h4, h5, h6, h7⟩ := hgform x hx
      have hb0 := hpos i now h3
      rw [harrived x hx i lines now b dd c h1 h3 h4 h5 h6 h7]
    · have := hmax x hx i now h1 h3
      refine ⟨by simp only; omega, ?_⟩
      intro e he
      simp only [Option.some.injEq] at he
      simp only
      omega
    · rfl
  have hsrc : ∀ x ∈ got, ∀ d : Seq.Doc, d.num = x.2.num → src0 d =
      { root := x.2.body, avail := av x, base := .clock, rd := rd, ref := ref, styles := styles, regions := regions } := by
    intro x hx d hd
    have := hfind x hx
    simp only [src0, liveSource, hd, this]
  have hlv : ∀ (i : Nat) lines, blocks[i]? = some lines → ∀ l ∈ lines, LineShown l = true :=
    fun i lines h => (hbl lines (List.mem_of_getElem? h)).2
  have hdocs : ∀ d ∈ deliveries evs, (src0 d).Sound d fin ∧ lined true (src0 d).root = true ∧ flat (src0 d).root = true ∧
      (src0 d).base = m.base := by
    intro d hd
    rw [hdel, List.mem_map] at hd
    obtain ⟨x, hx, rfl⟩ := hd
    obtain ⟨i, lines, now, b, dd, c, h1, h2, h3, h4, h5, h6, h7⟩ := hgform x hx
    have hb0 := hpos i now h3
    have hlv := hlv i lines h2
    obtain ⟨_, g2⟩ := hval x hx i lines now b dd c h1 h3 h4 h5 h6 h7
    rw [harrived x hx i lines now b dd c h1 h3 h4 h5 h6 h7, hsrc x hx _ rfl]
    obtain ⟨p1, p2, p3⟩ := made_plainL h4
    obtain ⟨s1, s2⟩ := made_shapedL h4 hlv
    obtain ⟨f1, f2⟩ := made_flatL h4
    refine ⟨⟨hrd, (hav x hx).1, (hav x hx).2, ?_, ?_, ?_, ?_, .inr ⟨rfl, htop⟩, ?_, ?_⟩, ?_, ?_, hmb.symm⟩
    · simp only; rw [h7]; exact made_sane b dd (by omega) (by omega) h4
    · simp only; rw [h7]
      simp only [madeBody, shaped, shapedL, fits, List.all_cons, List.all_nil, s1, s2]; decide
    · simp only; rw [h7]
      simp only [madeBody, wellTimed, wellTimedL, badly, p2]; decide
    · simp only; rw [h7]
      simp only [madeBody, inMs, inMsL, p3]
      simp only [List.all_cons, List.all_nil, Option.all_some, Option.all_none, h5, h6, hb0.2]
      decide
    · intro doc wb we hdoc _ anc y kids hr _
      simp only at hdoc hr ⊢
      rw [g2] at hdoc
      injection hdoc with hdoc
      rw [← hdoc] at hr
      obtain ⟨kids0, hr0, _⟩ := reach_comp hr
      obtain ⟨r1, r2⟩ := made_refs b dd h4 hr0
      exact ⟨fun s hs => by rw [r1 s hs]; exact (href _).1, fun r _ hrr => by rw [r2 r hrr]; exact (href _).2⟩
    · simp only
      rw [g2, made_times (av x) b dd (by omega) (by omega) h4]
      exact ⟨_, _, rfl, by simp only [h5, (hmax x hx i now h1 h3).1], by simp only [h5, h6]⟩
    · simp only; rw [h7]
      simp only [madeBody, lined, linedL, made_linedL h4 hlv, made_items h4, Bool.not_false, Bool.or_true, Bool.and_self]
    · simp only; rw [h7]
      simp only [madeBody, flat, flatL, fitsD, List.all_cons, List.all_nil, f1, f2]; decide
  have hmain := C99_played_partial (src := src0) (discard := discard) hl hms evs hin m hmr hz0.1 (fun _ => hz0.2.1) (fun _ => hz0.2.2) fin hfin
    htop hdocs segs (by rw [hsegs, hext])
  rw [hshift] at hmain
  refine ⟨⟨src0, hext, hin, hdocs⟩, hmain.1, fun u hu => ?_⟩
  obtain ⟨hA, hB⟩ := hmain.2 u hu
  refine ⟨fun hr => ?_, hB⟩
  obtain ⟨k, st, hk, _, hst, hlo, hhi, hnew, hnone⟩ := hA hr
  have hdelk : deliveries (evs.take k) = (deliveredAt (evs.take k)).map (fun x => arrived x.1 x.2) := deliveries_at _
  have hsub : ∀ y ∈ deliveredAt (evs.take k), ∃ x ∈ got, y = (x.1, liveDoc sid x.2) := by
    intro y hy
    have : y ∈ deliveredAt evs := by
      rw [← List.take_append_drop k evs]
      unfold deliveredAt
      rw [List.filterMap_append]
      exact List.mem_append_left _ hy
    rw [hevs, List.mem_map] at this
    obtain ⟨x, hx, h⟩ := this
    exact ⟨x, hx, h.symm⟩
  -- a delivered document, by its number
  have hdoc : ∀ d ∈ deliveries (evs.take k), ∃ x i lines now b dd c, x ∈ got ∧ x.2.num = i + 1 ∧ blocks[i]? = some lines ∧
      ts[i]? = some now ∧ interleave lines = some c ∧ b.delta = showFrom now ∧ dd.delta = 1000000 ∧ x.2.body = madeBody b dd c ∧
      (x.1, i + 1) ∈ gotAt (evs.take k) ∧
      d.num = i + 1 ∧ d.cbegin = max (showFrom now) x.1 ∧ d.cend = some (showFrom now + 1000000) := by
    intro d hd
    rw [hdelk, List.mem_map] at hd
    obtain ⟨y, hy, rfl⟩ := hd
    obtain ⟨x, hx, rfl⟩ := hsub y hy
    obtain ⟨i, lines, now, b, dd, c, h1, h2, h3, h4, h5, h6, h7⟩ := hgform x hx
    refine ⟨x, i, lines, now, b, dd, c, hx, h1, h2, h3, h4, h5, h6, h7, ?_, ?_⟩
    · rw [← h1]
      exact List.mem_map.2 ⟨_, hy, rfl⟩
    · rw [harrived x hx i lines now b dd c h1 h3 h4 h5 h6 h7]
      exact ⟨h1, rfl, rfl⟩
  have hgd : ∀ arr n, (arr, n) ∈ gotAt (evs.take k) → ∃ x ∈ got, x.1 = arr ∧ x.2.num = n ∧
      arrived arr (liveDoc sid x.2) ∈ deliveries (evs.take k) := by
    intro arr n h
    obtain ⟨y, hy, he⟩ := List.mem_map.1 h
    obtain ⟨x, hx, rfl⟩ := hsub y hy
    injection he with h1 h2
    refine ⟨x, hx, h1, h2, ?_⟩
    rw [hdelk, ← h1]
    exact List.mem_map.2 ⟨_, hy, rfl⟩
  refine ⟨k, st, hk, by rw [hext]; exact hst, hlo, hhi, ?_, ?_⟩
  · intro i lines now arr hbi hti hdi hfrom hlater
    obtain ⟨x, hx, rfl, g1, ha⟩ := hgd arr _ hdi
    obtain ⟨i', lines', now', b, dd, c, g1', g2, g3, g4, g5, g6, g7⟩ := hgform x hx
    have hi : i' = i := by omega
    subst hi
    rw [hbi] at g2; injection g2 with g2; subst g2
    rw [hti] at g3; injection g3 with g3; subst g3
    have hx' := harrived x hx i' lines now b dd c g1 hti g4 g5 g6 g7
    have hmx := hmax x hx i' now g1 hti
    generalize arrived x.1 (liveDoc sid x.2) = a at ha hx'
    have g8 : a.num = i' + 1 := by rw [hx']; exact g1
    have g9 : a.cbegin = max (showFrom now) x.1 := by rw [hx']
    have g10 : a.cend = some (showFrom now + 1000000) := by rw [hx']
    have hnw : Seq.Newest (deliveries (evs.take k)) (u + m.zero) a := by
      refine ⟨ha, by omega, ?_⟩
      intro y hy hyb
      obtain ⟨z, j, _, later, _, _, _, _, _, _, hj, _, _, _, _, hyg, hyn, hyb', _⟩ := hdoc y hy
      apply Classical.byContradiction
      intro hlt
      have := hlater j later z.1 (by omega) hj hyg
      omega
    by_cases hend : u + m.zero < showFrom now + 1000000
    · rw [if_pos hend, hnew a hnw (by intro e he; rw [g10] at he; injection he with he; omega)]
      have hb0 := hpos i' now hti
      obtain ⟨_, g2⟩ := hval x hx i' lines now b dd c g1 hti g4 g5 g6 g7
      unfold linesIn
      rw [hsrc x hx a (by omega)]
      simp only
      rw [g2, made_times (av x) b dd (by omega) (by omega) g4]
      have hread := made_reads g4 (hlv i' lines hbi) (av x) (show 0 ≤ b.delta by omega) (b.delta + dd.delta) (u + m.zero) (by omega)
      have hwords : Words ((lines.map Item.text).intersperse .br) = true := by
        have hne := (hbl lines (List.mem_of_getElem? hbi)).1
        cases lines with
        | nil => exact absurd rfl hne
        | cons l ls =>
          have := hlv i' _ hbi l List.mem_cons_self
          unfold LineShown at this
          cases ls <;> simp [Words, this]
      have hb1 : max b.delta (av x) ≤ u + m.zero := by omega
      have hb2 : u + m.zero < b.delta + dd.delta := by omega
      have hat : (⟨max b.delta (av x), some (b.delta + dd.delta)⟩ : Comp).at (u + m.zero) = true := by
        simp only [Comp.at, Bool.and_eq_true, decide_eq_true_eq]
        exact ⟨hb1, hb2⟩
      simp [linesAt, linesAtL, readAt, hread, hwords, hat]
    · rw [if_neg hend]
      apply hnone
      intro a' ha' he
      have : a'.num = a.num := by
        have h1 := ha'.2.2 a ha (by omega)
        have h2 := hnw.2.2 a' ha'.1 ha'.2.1
        omega
      obtain ⟨_, j, _, now', _, _, _, _, _, _, hj, _, _, _, _, _, hyn, _, hye⟩ := hdoc a' ha'.1
      have hji : j = i' := by omega
      subst hji
      rw [hti] at hj; injection hj with hj; subst hj
      have := he _ hye
      omega
  · intro hno
    apply hnone
    intro a ha
    exfalso
    obtain ⟨z, j, _, later, _, _, _, _, _, _, hj, _, _, _, _, hyg, hyn, hyb, _⟩ := hdoc a ha.1
    have := hno j later z.1 hj hyg
    have := ha.2.1
    omega

/-- **C100**  A producer is given blocks of text and asked for documents at any times (`ts`); the documents that arrive, in the order they
were sent and any of them possibly lost, go to a resequencer whose timer runs at any moments, and the segments are converted to EBU-TT-D.
A document begins with its second, or when it arrives if that is later.  At every media time the segments cover is read, with a line break
between the lines, the block of the last sent document that had begun at that instant, of those that arrived before the
timer made the segment with that instant; nothing is read when that document's second is over, or no such document had arrived, or
at other media times.

For blocks that are not empty and have no blank lines, documents that arrive before their second is over, and, if it has begun,
in whole milliseconds, and times below 100 hours. -/
theorem C100_blocks_played_partial (rd : Reader) (hrd : rd.Accurate) (ts : List Int) (hts : ∀ t ∈ ts, 0 ≤ t ∧ t < 359999000000)
    (blocks : List (List (List Char))) (hbl : ∀ b ∈ blocks, b ≠ [] ∧ ∀ l ∈ b, LineShown l = true)
    (sid : String) (got : List (Int × Produced)) (hgot : (got.map (·.2)).Sublist ((runP rd ⟨0, some blocks⟩ ts).2.filterMap id))
    (harr : ∀ x ∈ got, 0 ≤ x.1 ∧ ∀ now, ts[x.2.num - 1]? = some now →
      x.1 ≤ showFrom now ∨ x.1 % 1000 = 0 ∧ x.1 < showFrom now + 1000000)
    (evs : List REv) (hevs : deliveredAt evs = got.map (fun x => (x.1, liveDoc sid x.2)))
    (ref : Win → Name → Option Name) (styles regions : Win → Option (List Name))
    (href : ∀ w, (ref w "defaultStyle1".toList).isSome = true ∧ (ref w "bottomRegion".toList).isSome = true)
    (discard : Bool) (start len : Int) (hl : 0 < len) (hms : start % 1000 = 0 ∧ len % 1000 = 0)
    (m : Media) (hmr : m.rd.Accurate) (hmb : m.base = .clock) (hz0 : 0 ≤ m.zero ∧ m.zero % 1000 = 0 ∧ m.zero ≤ start)
    (fin : Int) (hfin : fin = start + ticksAfterFirst evs * len) (htop : fin < 100 * 3600000000)
    (ex : Seq.State → Int → Int → Option (Option SDoc) × Seq.State) (hex : ex = extract (liveSource rd ref styles regions got) discard)
    (segs : List (RSeg (Option SDoc))) (hsegs : segs = (runR ex len { lastEnd := start } evs).2) :
    segs.length = ticksAfterFirst evs ∧
    ∀ u, 0 ≤ u →
      (start ≤ u + m.zero ∧ u + m.zero < fin →
        ∃ k st, evs[k]? = some .tick ∧ st = (runR ex len { lastEnd := start } (evs.take k)).1 ∧
          st.lastEnd ≤ u + m.zero ∧ u + m.zero < st.lastEnd + len ∧
          (∀ (i : Nat) lines now arr, blocks[i]? = some lines → ts[i]? = some now → (arr, i + 1) ∈ gotAt (evs.take k) →
            max (showFrom now) arr ≤ u + m.zero →
            (∀ (j : Nat) later arr', i < j → ts[j]? = some later → (arr', j + 1) ∈ gotAt (evs.take k) →
              u + m.zero < max (showFrom later) arr') →
            linesAll m segs u = if u + m.zero < showFrom now + 1000000 then [(lines.map Item.text).intersperse .br] else []) ∧
          ((∀ (j : Nat) later arr, ts[j]? = some later → (arr, j + 1) ∈ gotAt (evs.take k) → u + m.zero < max (showFrom later) arr) →
            linesAll m segs u = [])) ∧
      (¬(start ≤ u + m.zero ∧ u + m.zero < fin) → linesAll m segs u = []) :=
  (live_run rd hrd ts hts blocks hbl sid got hgot harr evs hevs ref styles regions href discard start len hl hms m hmr hmb hz0 fin hfin htop ex hex
    segs hsegs).2

def exBlocks : List (List (List Char)) := [["a".toList, "b".toList], ["c".toList], ["d".toList]]

/-- What is made of the three blocks at 0 s, 1.2 s and 3 s. -/
def exMade : List Produced := (runP exactReader ⟨0, some exBlocks⟩ [0, 1200000, 3000000]).2.filterMap id

/-- The second document is lost, the third comes three tenths of a second late. -/
def exGot : List (Int × Produced) :=
  match exMade with
  | [a, _, c] => [(200, a), (4300000, c)]
  | _ => []

def exMissed : List REv :=
  match exGot with
  | [a, c] => [.tick, .deliver a.1 (some (liveDoc "s" a.2)), .tick, .deliver c.1 (some (liveDoc "s" c.2)), .tick, .tick]
  | _ => []

/-- The hypotheses of `C100_blocks_played_partial` hold, with a loss, a late document and a call of the timer before anything came. -/
example : (exGot.map (·.2)).Sublist exMade ∧ exGot.map (·.2.num) = [1, 3] ∧
    (∀ x ∈ exGot, 0 ≤ x.1 ∧ ∀ now, ([0, 1200000, 3000000] : List Int)[x.2.num - 1]? = some now →
      x.1 ≤ showFrom now ∨ x.1 % 1000 = 0 ∧ x.1 < showFrom now + 1000000) ∧
    deliveredAt exMissed = exGot.map (fun x => (x.1, liveDoc "s" x.2)) ∧ ticksAfterFirst exMissed = 3 ∧
    (∀ b ∈ exBlocks, b ≠ [] ∧ ∀ l ∈ b, LineShown l = true) ∧
    [499999, 500000, 1499999, 1500000, 3799999, 3800000, 4499999, 4500000].map (linesAll exHalf
        (runR (extract (liveSource exactReader (fun _ n => some n) (fun _ => none) (fun _ => none) exGot) true) 2000000
          { lastEnd := 1000000 } exMissed).2) =
      [[], [[.text ['a'], .br, .text ['b']]], [[.text ['a'], .br, .text ['b']]], [], [], [[.text ['d']]], [[.text ['d']]], []] := by
  have h : ∃ a b c, exMade = [a, b, c] ∧ a.num = 1 ∧ c.num = 3 := ⟨_, _, _, rfl, rfl, rfl⟩
  obtain ⟨a, b, c, h, ha, hc⟩ := h
  have hg : exGot = [(200, a), (4300000, c)] := by unfold exGot; rw [h]
  refine ⟨?_, by rw [hg]; simp [ha, hc], ?_, ?_, by decide +kernel, by decide, by decide +kernel⟩
  · rw [hg, h]
    exact .cons_cons _ (.cons _ (.cons_cons _ .slnil))
  · rw [hg]
    intro x hx
    simp only [List.mem_cons, List.not_mem_nil, or_false] at hx
    rcases hx with rfl | rfl
    · simp [ha, showFrom, toMs]
    · simp [hc, showFrom, toMs]
  · unfold exMissed
    rw [hg]
    rfl

end Verif.Convert
