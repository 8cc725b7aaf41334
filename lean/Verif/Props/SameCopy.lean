import Verif.Props.Whole

/-!
# C123: any DAG is copied out in one way only
-/

namespace Unixfs.Props
open Unixfs.Hamt hiding exec execAll results NoEmptyName lastWrite Cfg
open Unixfs.Dir Unixfs.File Unixfs.Spec

variable {net net' dnet dnet' : Net} {t t' : Nat} {nd : Node} {f f' : FileNode} {tr tr' : Tree} {x : Node}

theorem get_det {s c s1 c' s1' : Shard} {i t1 t1' : Nat} (h : s.get net i t = (.ok (c, s1), t1)) (h' : s.get net' i t' = (.ok (c', s1'), t1')) : c = c' ∧ s1 = s1' := by
  unfold Shard.get at h h'
  cases hs : s.slots[i]? with
  | none => rw [hs] at h; cases h
  | some x =>
    rw [hs] at h h'
    cases x with
    | child y => cases h; cases h'; exact ⟨rfl, rfl⟩
    | link l =>
      dsimp only at h h'
      cases hk : childLinkType s.size l with
      | error e => rw [hk] at h; cases h
      | ok k =>
        rw [hk] at h h'
        cases k with
        | shardLink =>
          dsimp only at h h'
          split at h
          · split at h'
            · cases hl : newHamtFromDag l.target with
              | error e => rw [hl] at h; cases h
              | ok y => rw [hl] at h h'; cases h; cases h'; exact ⟨rfl, rfl⟩
            · cases h'
          · cases h
        | shardValueLink =>
          dsimp only at h h'
          cases hl : makeShardValue s.size l with
          | error e => rw [hl] at h; cases h
          | ok y => rw [hl] at h h'; cases h; cases h'; exact ⟨rfl, rfl⟩

theorem eachLoop_det {step step' : Shard → EachSt → Option Err × Shard × EachSt}
    (hstep : ∀ c st st' c1 st1 c2 st2, step c st = (none, c1, st1) → step' c st' = (none, c2, st2) → st.out = st'.out → c1 = c2 ∧ st1.out = st2.out) :
    ∀ (is : List Nat) (s s1 s2 : Shard) (st st' st1 st2 : EachSt), eachLoop net step is s st = (none, s1, st1) → eachLoop net' step' is s st' = (none, s2, st2) → st.out = st'.out →
      s1 = s2 ∧ st1.out = st2.out
  | [], s, s1, s2, st, st', st1, st2, h, h', ho => by cases h; cases h'; exact ⟨rfl, ho⟩
  | i :: is, s, s1, s2, st, st', st1, st2, h, h', ho => by
    unfold eachLoop at h h'
    rcases hg : s.get net i st.t with ⟨_ | ⟨c, sa⟩, ta⟩
    · rw [hg] at h; cases h
    rcases hg' : s.get net' i st'.t with ⟨_ | ⟨c', sb⟩, tb⟩
    · rw [hg'] at h'; cases h'
    rw [hg] at h
    rw [hg'] at h'
    obtain ⟨rfl, rfl⟩ := get_det hg hg'
    dsimp only at h h'
    rcases hs : step c { st with t := ta } with ⟨_ | e, c1, x1⟩
    · rcases hs' : step' c { st' with t := tb } with ⟨_ | e, c2, x2⟩
      · rw [hs] at h
        rw [hs'] at h'
        obtain ⟨rfl, h3⟩ := hstep _ _ _ _ _ _ _ hs hs' ho
        exact eachLoop_det hstep is _ _ _ _ _ _ _ h h' h3
      · rw [hs'] at h'; cases h'
    · rw [hs] at h; cases h

theorem forEachF_det (cb : Nat → Bool) : ∀ (f : Nat) (s s1 s2 : Shard) (st st' st1 st2 : EachSt), forEachF net cb f s st = (none, s1, st1) → forEachF net' cb f s st' = (none, s2, st2) →
    st.out = st'.out → s1 = s2 ∧ st1.out = st2.out
  | 0, s, s1, s2, st, st', st1, st2, h, h', ho => by cases h
  | f + 1, s, s1, s2, st, st', st1, st2, h, h', ho => by
    unfold forEachF at h h'
    refine eachLoop_det ?_ _ _ _ _ _ _ _ _ h h' ho
    intro c st st' c1 st1 c2 st2 h h' ho
    dsimp only at h h'
    split at h
    · next hv =>
      rw [if_pos hv] at h'
      simp only [Prod.mk.injEq] at h h'
      obtain ⟨_, rfl, rfl⟩ := h
      obtain ⟨_, rfl, rfl⟩ := h'
      exact ⟨rfl, by simp [ho]⟩
    · next hv =>
      rw [if_neg hv] at h'
      exact forEachF_det cb f _ _ _ _ _ _ _ h h' ho

/-- Going through the links of a directory without an error gives the same links whatever it meets. -/
theorem links_det {env env' : Env} {c c' : Dir.Cfg} (hd : c.dir = c'.dir) (h : (linksAndError env c).2 = none) (h' : (linksAndError env' c').2 = none) :
    (linksAndError env c).1 = (linksAndError env' c').1 := by
  simp only [linksAndError, forEachLink] at h h' ⊢
  rw [← hd] at h' ⊢
  cases hc : c.dir with
  | basic b => rfl
  | hamt x =>
    rw [hc] at h h'
    dsimp only at h h' ⊢
    rw [Shard.forEachLink] at h h' ⊢
    rw [Shard.forEachLink]
    rcases hx : forEachF env.net (fun _ => false) x.shard.depth x.shard { out := [], t := c.t } with ⟨e, s1, st1⟩
    rcases hy : forEachF env'.net (fun _ => false) x.shard.depth x.shard { out := [], t := c'.t } with ⟨e', s2, st2⟩
    rw [hx] at h
    rw [hy] at h'
    dsimp only at h h' ⊢
    subst h; subst h'
    exact (forEachF_det _ _ _ _ _ _ _ _ _ hx hy rfl).2

/-- What a node opens as does not depend on what can be fetched. -/
theorem kind_same (h : newUnixfsFile net t nd = .ok f) (h' : newUnixfsFile net' t' nd = .ok f') :
    (∃ dr dr', f = .file dr ∧ f' = .file dr' ∧ newDagReader net t nd = .ok dr ∧ newDagReader net' t' nd = .ok dr') ∨
    (∃ d s, f = .dir d s ∧ f' = .dir d s ∧ newDirectoryFromNode nd = .ok d) ∨ ∃ target, f = .symlink target ∧ f' = .symlink target := by
  cases f with
  | dir d s =>
    have h1 := (C52_dir d s).mp h
    have h2 := (C52_dir (net := net') (t := t') d s).mpr h1
    rw [h'] at h2; cases h2
    exact .inr (.inl ⟨d, s, rfl, rfl, h1.1⟩)
  | symlink x =>
    have h2 := (C52_symlink (net := net') (t := t') x).mpr ((C52_symlink x).mp h)
    rw [h'] at h2; cases h2
    exact .inr (.inr ⟨x, rfl, rfl⟩)
  | file dr =>
    cases f' with
    | dir d s =>
      have h2 := (C52_dir (net := net) (t := t) d s).mpr ((C52_dir d s).mp h')
      rw [h] at h2; cases h2
    | symlink x =>
      have h2 := (C52_symlink (net := net) (t := t) x).mpr ((C52_symlink x).mp h')
      rw [h] at h2; cases h2
    | file dr' => exact .inl ⟨dr, dr', rfl, rfl, (C52_file dr).mp h, (C52_file dr').mp h'⟩

/-- What a program reads from a file without an error is its content. -/
theorem copies_file {dr : DR} (h : newDagReader net t nd = .ok dr) (hc : Copies dnet net (.file dr) tr) (hl : ∀ x, Reach nd x → contentLen x < 2 ^ 63) :
    ∃ x c, Opens nd x ∧ content x = some c ∧ tr = .file c := by
  have hr : ∀ {x c}, Opens nd x → content x = some c → c.length < 2 ^ 63 := by
    intro x c ho hc
    rw [← Reader.contentLen_eq hc]
    refine hl x ?_
    clear * - ho
    induction ho with
    | raw => exact .refl _
    | file => exact .refl _
    | metadata d l ls b m x _ _ _ _ ih => exact .step (List.mem_cons_self ..) ih
  cases hc with
  | @writeTo _ dr' w r hw hrun he =>
    rw [Reader.run_cons, Reader.run_nil] at hrun
    simp only [Prod.mk.injEq, List.cons.injEq, and_true] at hrun
    have h1 : (dr.writeTo net w).1 = r := hrun.1
    obtain ⟨x, c, h2, h3, h4⟩ := C122_writeTo h hw (by rw [h1]; exact he)
    refine ⟨x, c, h2, h3, ?_⟩
    rw [h4 (hr h2 h3)] at h1
    rw [← h1]
  | @reads _ dr' ks rs r hk hrun hrs he =>
    obtain ⟨x, c, h2, h3, h4⟩ := C122_reads h hk hrun hrs he
    exact ⟨x, c, h2, h3, by rw [h4 (hr h2 h3)]⟩

/-- C123: two programs that copy the same DAG out, each in its own way, at its own time and with other blocks at hand, and both are told of no error, get the same tree,
with the entries of directories in the same order. The DAG is any, well formed or not; its files have less than `2 ^ 63` bytes. -/
theorem C123_same (h : newUnixfsFile net t nd = .ok f) (h' : newUnixfsFile net' t' nd = .ok f') (hl : ∀ x, Reach nd x → contentLen x < 2 ^ 63)
    (hc : Copies dnet net f tr) (hc' : Copies dnet' net' f' tr') : tr = tr' := by
  induction hc generalizing nd t t' f' tr' with
  | writeTo hw hr he =>
    rcases kind_same h h' with ⟨dr, dr', e1, rfl, h1, h2⟩ | ⟨_, _, e, _⟩ | ⟨_, e, _⟩
    · cases e1
      obtain ⟨x, c, h3, h4, h5⟩ := copies_file (dnet := dnet) h1 (.writeTo hw hr he) hl
      obtain ⟨x', c', h3', h4', h5'⟩ := copies_file h2 hc' hl
      rw [opens_unique h3 h3', h4'] at h4
      cases h4
      rw [h5, h5']
    · cases e
    · cases e
  | reads hk hr hrs he =>
    rcases kind_same h h' with ⟨dr, dr', e1, rfl, h1, h2⟩ | ⟨_, _, e, _⟩ | ⟨_, e, _⟩
    · cases e1
      obtain ⟨x, c, h3, h4, h5⟩ := copies_file (dnet := dnet) h1 (.reads hk hr hrs he) hl
      obtain ⟨x', c', h3', h4', h5'⟩ := copies_file h2 hc' hl
      rw [opens_unique h3 h3', h4'] at h4
      cases h4
      rw [h5, h5']
    · cases e
    · cases e
  | symlink =>
    rcases kind_same h h' with ⟨_, _, e, _⟩ | ⟨_, _, e, _⟩ | ⟨x, e, rfl⟩
    · cases e
    · cases e
    · cases e; cases hc'; rfl
  | @dir d size env c n g es hnet hd hs hlog hnames hsub ih =>
    rcases kind_same h h' with ⟨_, _, e, _⟩ | ⟨d', s', e, rfl, hload⟩ | ⟨_, e, _⟩
    · cases e
    · cases e
      cases hc' with
      | @dir _ _ env' c' n' g' es' hnet' hd' hs' hlog' hnames' hsub' =>
        obtain ⟨hcomp, hfin⟩ := C53_complete hs hlog
        obtain ⟨hcomp', hfin'⟩ := C53_complete hs' hlog'
        have hL := links_det (hd.trans hd'.symm) hfin hfin'
        rw [← hL] at hcomp'
        have hin := load_dir_in (P := Reach nd) hload (fun l hl => .step hl (.refl _))
        rw [← hd] at hin
        have hreach := links_in (env := env) (reach_complete nd) hin
        have names : ∀ {net : Net} {L : List Link} {D : List (Bytes × FileNode)}, List.Forall₂ (Opened net) L D → D.map Prod.fst = L.map Link.name := by
          intro net L D h
          induction h with
          | nil => rfl
          | cons h _ ih => rw [List.map_cons, List.map_cons, ih, h.1]
        have hn : es.map Prod.fst = es'.map Prod.fst := by rw [hnames, hnames', names hcomp, names hcomp']
        have hlen : es.length = es'.length := by simpa using congrArg List.length hn
        have hlD : es.length = g.delivered.length := by simpa using congrArg List.length hnames
        have hlD' : es'.length = g'.delivered.length := by simpa using congrArg List.length hnames'
        have hlc := hcomp.length_eq
        refine congrArg Tree.dir (List.ext_getElem hlen fun i hi hi' => Prod.ext ?_ ?_)
        · have := congrArg (·[i]?) hn
          simpa [List.getElem?_map, List.getElem?_eq_getElem hi, List.getElem?_eq_getElem hi'] using this
        · have o1 := (List.forall₂_iff_get.mp hcomp).2 i (by omega) (by omega)
          have o2 := (List.forall₂_iff_get.mp hcomp').2 i (by omega) (by omega)
          simp only [List.get_eq_getElem] at o1 o2
          obtain ⟨_, u, hu⟩ := o1
          obtain ⟨_, u', hu'⟩ := o2
          have hm := hreach _ (List.getElem_mem (l := (linksAndError env c).1) (n := i) (by omega))
          exact ih i _ _ (List.getElem?_eq_getElem hi) (List.getElem?_eq_getElem (by omega)) hu hu' (fun x hx => hl x (reach_complete nd _ _ hm hx))
            (hsub' i _ _ (List.getElem?_eq_getElem hi') (List.getElem?_eq_getElem (by omega)))
    · cases e

theorem get_all {s : Shard} {i t1 : Nat} {x : Shard × Shard} (h : s.get net i t = (.ok x, t1)) : s.get allNet i t = (.ok x, t1) := by
  unfold Shard.get at h ⊢
  cases hs : s.slots[i]? with
  | none => rw [hs] at h; cases h
  | some y =>
    rw [hs] at h
    cases y with
    | child y => exact h
    | link l =>
      dsimp only at h ⊢
      cases hk : childLinkType s.size l with
      | error e => rw [hk] at h; cases h
      | ok k =>
        rw [hk] at h
        cases k with
        | shardLink =>
          dsimp only at h ⊢
          split at h
          · rw [if_pos (show allNet t l.target = true from rfl)]; exact h
          · cases h
        | shardValueLink => exact h

theorem eachLoop_all {step step' : Shard → EachSt → Option Err × Shard × EachSt} (hstep : ∀ c st c1 st1, step c st = (none, c1, st1) → step' c st = (none, c1, st1)) :
    ∀ (is : List Nat) (s s1 : Shard) (st st1 : EachSt), eachLoop net step is s st = (none, s1, st1) → eachLoop allNet step' is s st = (none, s1, st1)
  | [], s, s1, st, st1, h => h
  | i :: is, s, s1, st, st1, h => by
    unfold eachLoop at h ⊢
    rcases hg : s.get net i st.t with ⟨_ | ⟨c, sa⟩, ta⟩
    · rw [hg] at h; cases h
    rw [hg] at h
    rw [get_all hg]
    dsimp only at h ⊢
    rcases hs : step c { st with t := ta } with ⟨_ | e, c1, x1⟩
    · rw [hs] at h
      rw [hstep _ _ _ _ hs]
      exact eachLoop_all hstep is _ _ _ _ h
    · rw [hs] at h; cases h

theorem forEachF_all (cb : Nat → Bool) : ∀ (f : Nat) (s s1 : Shard) (st st1 : EachSt), forEachF net cb f s st = (none, s1, st1) → forEachF allNet cb f s st = (none, s1, st1)
  | 0, s, s1, st, st1, h => by cases h
  | f + 1, s, s1, st, st1, h => by
    unfold forEachF at h ⊢
    refine eachLoop_all ?_ _ _ _ _ _ h
    intro c st c1 st1 h
    dsimp only at h ⊢
    split at h
    · next hv => rw [if_pos hv]; exact h
    · next hv => rw [if_neg hv]; exact forEachF_all cb f _ _ _ _ h

/-- If the links of a directory were once gone through without an error, then they are whenever the blocks below it can be fetched. -/
theorem links_again {d : Dir} (hd : newDirectoryFromNode nd = .ok d) {env : Env} {c : Dir.Cfg} (hc : c.dir = d) (h : (linksAndError env c).2 = none)
    (hn : ∀ u x, Reach nd x → dnet' u x = true) : linksAndError { env with net := dnet' } c = linksAndError env c := by
  have hin := load_dir_in (P := Reach nd) hd (fun l hl => .step hl (.refl _))
  rw [← hc] at hin
  rw [(linksAndError_serves (reach_complete nd) (env := { env with net := dnet' }) hin hn { env with net := allNet } rfl).1]
  simp only [linksAndError, forEachLink] at h ⊢
  cases hcd : c.dir with
  | basic b => rfl
  | hamt x =>
    rw [hcd] at h
    dsimp only at h ⊢
    rw [Shard.forEachLink] at h ⊢
    rw [Shard.forEachLink]
    rcases hx : forEachF env.net (fun _ => false) x.shard.depth x.shard { out := [], t := c.t } with ⟨e, s1, st1⟩
    rw [hx] at h
    dsimp only at h
    subst h
    rw [forEachF_all _ _ _ _ _ _ hx]

theorem open_served (h : Opens nd x) (hn : ∀ u y, Reach nd y → net u y = true) (t : Nat) : ∃ dr, newDagReader net t nd = .ok dr := by
  induction h generalizing t with
  | raw d b => exact ⟨_, Reader.newDagReader_raw net t d b⟩
  | file d ls b m hm hf =>
    have hty := (Reader.isFileMsg_type (Pb.Data.unmarshal_wf hm).typ).mp hf
    exact ⟨{ root := .proto d ls b, size := (FSNode.mk m).fileSize, path := [], cur := none, offset := 0, tick := t }, by
      simp only [newDagReader, FSNode.fromBytes, hm, hty, if_true]⟩
  | metadata d l ls b m x hm ht hp h ih =>
    obtain ⟨nm, ts, ch⟩ := l
    have hch : Reach (.proto d (.mk nm ts ch :: ls) b) ch := .step (l := .mk nm ts ch) (List.mem_cons_self ..) (.refl _)
    obtain ⟨dr, h1⟩ := ih (fun u y hy => hn u y (hch.trans' hy)) (t + 1)
    refine ⟨dr, ?_⟩
    simp only [Link.target] at hp h1
    simp only [newDagReader, FSNode.fromBytes, hm, Reader.type_of ht]
    simp only [TMetadata, TFile, TRaw, TDirectory, THAMTShard]
    simp [newDagReaderMeta, hn t ch hch, hp, h1]

theorem opens_reach (h : Opens nd x) : Reach nd x := by
  induction h with
  | raw => exact .refl _
  | file => exact .refl _
  | metadata d l ls b m x _ _ _ _ ih => exact .step (List.mem_cons_self ..) ih

/-- A file that has content is read whenever its blocks can be fetched. -/
theorem file_again {c : Bytes} (ho : Opens nd x) (hc : content x = some c) (hl : c.length < 2 ^ 63) (hn : ∀ u y, Reach nd y → net' u y = true) (t' : Nat) :
    ∃ f', newUnixfsFile net' t' nd = .ok f' ∧ Copies dnet' net' f' (.file c) := by
  obtain ⟨dr, hd⟩ := open_served ho hn t'
  obtain ⟨h1, _, h3, h4, h5, _⟩ := Reader.open_conv _ _ _ _ hd
  have hroot := opens_unique h1 ho
  obtain ⟨p, hp, _, hflat⟩ := Reader.cut_run allNet [.writeTo (fun _ => none)] (Reader.inv_open (by rw [hroot]; exact hc) hl h3 h4 h5) (.inl (by simp))
    (by intro w hw; simp at hw; subst hw; exact fun _ => rfl) (by intro i off wh r h; match i, h with | 0, h => simp at h | k + 1, h => simp at h)
  have hf := hflat (fun _ _ _ => rfl)
  rw [← Reader.run_agree (net := net') [.writeTo (fun _ => none)] (fun u y hy => by rw [hroot] at hy; exact hn u y ((opens_reach ho).trans' hy)) (by rw [h3]; intro f hf; simp at hf)] at hf
  refine ⟨.file dr, (C52_file dr).mpr hd, ?_⟩
  generalize hr : dr.run net' [.writeTo (fun _ => none)] = R at hf
  obtain ⟨rs, dr'⟩ := R
  cases hf with
  | cons a b =>
    cases b
    cases a
    exact .writeTo (w := fun _ => none) (fun _ => rfl) hr rfl

/-- C123: if one program has copied a DAG out, then every program can whose directories, iterators and readers can fetch the blocks of the DAG, and it gets that tree. So it is
the DAG, not luck, that decides whether there is a tree to copy. -/
theorem C123_again (h : newUnixfsFile net t nd = .ok f) (hc : Copies dnet net f tr) (hl : ∀ x, Reach nd x → contentLen x < 2 ^ 63)
    (hn : ∀ u x, Reach nd x → net' u x = true) (hdn : ∀ u x, Reach nd x → dnet' u x = true) (t' : Nat) : ∃ f', newUnixfsFile net' t' nd = .ok f' ∧ Copies dnet' net' f' tr := by
  have file : ∀ {nd : Node} {tr : Tree} {t' : Nat}, (∃ x c, Opens nd x ∧ content x = some c ∧ tr = .file c) → (∀ x, Reach nd x → contentLen x < 2 ^ 63) →
      (∀ u x, Reach nd x → net' u x = true) → ∃ f', newUnixfsFile net' t' nd = .ok f' ∧ Copies dnet' net' f' tr := by
    rintro nd tr t' ⟨x, c, h1, h2, rfl⟩ hl hn
    exact file_again h1 h2 (by rw [← Reader.contentLen_eq h2]; exact hl x (opens_reach h1)) hn t'
  induction hc generalizing nd t t' with
  | writeTo hw hr he => exact file (copies_file (dnet := dnet) ((C52_file _).mp h) (.writeTo hw hr he) hl) hl hn
  | reads hk hr hrs he => exact file (copies_file (dnet := dnet) ((C52_file _).mp h) (.reads hk hr hrs he) hl) hl hn
  | symlink => exact ⟨_, (C52_symlink _).mpr ((C52_symlink _).mp h), .symlink⟩
  | @dir d size env c n g es hnet hd hs hlog hnames hsub ih =>
    have hload := (C52_dir d size).mp h
    refine ⟨.dir d size, (C52_dir d size).mpr hload, ?_⟩
    obtain ⟨hcomp, hfin⟩ := C53_complete hs hlog
    have hL := links_again (dnet' := dnet') hload.1 hd hfin hdn
    have hin := load_dir_in (P := Reach nd) hload.1 (fun l hl => .step hl (.refl _))
    rw [← hd] at hin
    have hreach := links_in (env := env) (reach_complete nd) hin
    have names : ∀ {net : Net} {L : List Link} {D : List (Bytes × FileNode)}, List.Forall₂ (Opened net) L D → D.map Prod.fst = L.map Link.name := by
      intro net L D h
      induction h with
      | nil => rfl
      | cons h _ ih => rw [List.map_cons, List.map_cons, ih, h.1]
    have hlD : es.length = g.delivered.length := by simpa using congrArg List.length hnames
    have hlc := hcomp.length_eq
    have key : ∀ (i : Nat) (hi : i < (linksAndError env c).1.length) (u : Nat), ∃ f', newUnixfsFile net' u ((linksAndError env c).1[i]).target = .ok f' ∧ Copies dnet' net' f' (es[i]'(by omega)).2 := by
      intro i hi u
      have o1 := (List.forall₂_iff_get.mp hcomp).2 i hi (by omega)
      simp only [List.get_eq_getElem] at o1
      obtain ⟨_, v, hv⟩ := o1
      have hm := hreach _ (List.getElem_mem hi)
      exact ih i _ _ (List.getElem?_eq_getElem (by omega)) (List.getElem?_eq_getElem (by omega)) hv (fun x hx => hl x (hm.trans' hx)) (fun u x hx => hn u x (hm.trans' hx))
        (fun u x hx => hdn u x (hm.trans' hx)) u
    obtain ⟨n', g', hs', _, hx', hlen'⟩ := calls_run (net := net') (linksAndError env c).1 none ((linksAndError env c).1.length + 1)
    obtain ⟨e, he⟩ := C53_ends hs' (by omega)
    obtain ⟨rfl, hcomp'⟩ := C53_all hs' (fun u l hl' => hn u _ (hreach l hl')) (fun u l hl' => by
      obtain ⟨i, hi, rfl⟩ := List.mem_iff_getElem.mp hl'
      obtain ⟨f', hf', _⟩ := key i hi u
      exact ⟨f', hf'⟩) hx' he
    have hlc' := hcomp'.length_eq
    refine .dir (env := { env with net := dnet' }) (c := c) rfl hd (by rw [hL, hfin]; exact hs') he (by rw [hnames, names hcomp, names hcomp']) ?_
    intro i e x he' hx
    have hi := (List.getElem?_eq_some_iff.mp hx).1
    have o2 := (List.forall₂_iff_get.mp hcomp').2 i (by omega) hi
    simp only [List.get_eq_getElem] at o2
    obtain ⟨_, v, hv⟩ := o2
    obtain ⟨f', hf', hcf⟩ := key i (by omega) v
    rw [(List.getElem?_eq_some_iff.mp hx).2, hf'] at hv
    cases hv
    rw [(List.getElem?_eq_some_iff.mp he').2] at hcf
    exact hcf

section Examples

/-- A directory that holds the file `exLying`. -/
def exLyingDir : Node := .proto folderPBData [.mk [0x61] 1 exLying] .v0

theorem exLyingDir_opens (net : Net) (t : Nat) : newUnixfsFile net t exLyingDir = .ok (.dir (.basic (.ofNode folderPBData [.mk [0x61] 1 exLying] .v0)) (i64 exLyingDir.size.toNat)) := by
  refine (C52_dir _ _).mpr ⟨?_, rfl⟩
  rw [exLyingDir, newDirectoryFromNode, folder_isDir.choose_spec.1]
  dsimp only
  rw [if_pos folder_isDir.choose_spec.2]

theorem exLying_opens (u : Nat) : ∃ dr, newUnixfsFile goodNet u exLying = .ok (.file dr) := by
  obtain ⟨dr, h⟩ := (C25_accepts (net := goodNet) (t := u) (n := exLying) (fun _ _ _ => rfl)).mpr (by
    have h : (newDagReader goodNet 0 exLying).toOption.isSome := by decide +kernel
    cases hd : newDagReader goodNet 0 exLying with
    | error e => rw [hd] at h; cases h
    | ok dr => exact ⟨_, (Reader.open_conv _ _ _ _ hd).1⟩)
  exact ⟨dr, (C52_file dr).mpr h⟩

theorem exLying_content : ∃ x, Opens exLying x ∧ content x = some [1, 2, 3] := by
  have h : (match newDagReader goodNet 0 exLying with
    | .ok dr => decide (content dr.root = some [1, 2, 3])
    | _ => false) = true := by decide +kernel
  split at h
  · next dr hd => exact ⟨_, (Reader.open_conv _ _ _ _ hd).1, of_decide_eq_true h⟩
  · cases h

theorem exLyingDir_short : ∀ x, Reach exLyingDir x → contentLen x < 2 ^ 63 := by
  have all : ∀ {n x : Node}, Reach n x → x = n ∨ ∃ l ∈ n.links, Reach l.target x := by
    intro n x h
    cases h with
    | refl => exact .inl rfl
    | step hl h => exact .inr ⟨_, hl, h⟩
  intro x hx
  rcases all hx with rfl | ⟨l, hl, hx⟩
  · decide +kernel
  simp only [exLyingDir, Node.links, List.mem_singleton] at hl
  subst hl
  rcases all hx with rfl | ⟨l, hl, hx⟩
  · decide +kernel
  simp only [exLying, Link.target, Node.links, List.mem_singleton, makeLink] at hl
  subst hl
  rcases all hx with rfl | ⟨l, hl, hx⟩
  · decide +kernel
  simp only [bad, Link.target, Node.links, List.map_cons, List.map_nil, List.mem_cons, List.not_mem_nil, or_false, makeLink] at hl
  rcases hl with rfl | rfl
  · rcases all hx with rfl | ⟨l, hl, hx⟩
    · decide +kernel
    · simp [badLeaf, bad, Link.target, Node.links] at hl
  · rcases all hx with rfl | ⟨l, hl, hx⟩
    · decide +kernel
    · simp [badLeaf, bad, Link.target, Node.links] at hl

/-- It is copied out, although all the sizes in the file are wrong; and any other copy is the same, and whoever can fetch the blocks gets it. -/
example : ∃ f, newUnixfsFile goodNet 0 exLyingDir = .ok f ∧ Copies goodNet goodNet f (.dir [([0x61], .file [1, 2, 3])]) ∧
    (∀ dnet net t f' tr, newUnixfsFile net t exLyingDir = .ok f' → Copies dnet net f' tr → .dir [([0x61], .file [1, 2, 3])] = tr) ∧
    ∀ net t, (∀ u x, Reach exLyingDir x → net u x = true) → ∃ f', newUnixfsFile net t exLyingDir = .ok f' ∧ Copies net net f' (.dir [([0x61], .file [1, 2, 3])]) := by
  have ho := exLyingDir_opens goodNet 0
  have hL : linksAndError (calmEnv H0) (start (.basic (.ofNode folderPBData [.mk [0x61] 1 exLying] .v0)) 0) = ([.mk [0x61] 1 exLying], none) := rfl
  obtain ⟨n, g, hs, _, hx, hlen⟩ := calls_run (net := goodNet) [.mk [0x61] 1 exLying] none 2
  obtain ⟨e, he⟩ := C53_ends hs (by rw [hlen]; decide)
  obtain ⟨rfl, hcomp⟩ := C53_all hs (fun _ _ _ => rfl) (fun u l hl => by
    rw [List.mem_singleton] at hl; subst hl
    obtain ⟨dr, h⟩ := exLying_opens u
    exact ⟨_, h⟩) hx he
  obtain ⟨x, hg, hn, u, hu⟩ : ∃ x, g.delivered = [x] ∧ Opened goodNet (.mk [0x61] 1 exLying) x := by
    generalize g.delivered = D at hcomp
    cases hcomp with
    | cons h h' => cases h'; exact ⟨_, rfl, h⟩
  obtain ⟨nm, ff⟩ := x
  dsimp only at hn hu
  have hu' : newUnixfsFile goodNet u exLying = .ok ff := hu
  obtain ⟨dr, hd⟩ := exLying_opens u
  rw [hd] at hu'; cases hu'
  have hc : Copies goodNet goodNet (.dir (.basic (.ofNode folderPBData [.mk [0x61] 1 exLying] .v0)) (i64 exLyingDir.size.toNat)) (.dir [([0x61], .file [1, 2, 3])]) := by
    refine .dir (env := calmEnv H0) (c := start _ 0) rfl rfl (by rw [hL]; exact hs) he (by rw [hg]; simp only [List.map_cons, List.map_nil]; rw [hn]; rfl) ?_
    intro i e x he hx
    rw [hg] at hx
    match i, he, hx with
    | 0, he, hx =>
      cases he; cases hx
      obtain ⟨x, hx, hxc⟩ := exLying_content
      have h1 := (C52_file dr).mp hd
      have h2 := Reader.open_conv _ _ _ _ h1
      have hroot := opens_unique h2.1 hx
      obtain ⟨p, hp, _, hflat⟩ := Reader.cut_run goodNet [.writeTo (fun _ => none)] (Reader.inv_open (by rw [hroot]; exact hxc) (by decide) h2.2.2.1 h2.2.2.2.1 h2.2.2.2.2.1) (.inl (by simp))
        (by intro w hw; simp at hw; subst hw; exact fun _ => rfl) (by intro i off wh r h; match i, h with | 0, h => simp at h | k + 1, h => simp at h)
      have hf := hflat (fun _ _ _ => rfl)
      generalize hr : dr.run goodNet [.writeTo (fun _ => none)] = R at hf
      obtain ⟨rs, dr'⟩ := R
      cases hf with
      | cons a b =>
        cases b
        cases a
        exact .writeTo (w := fun _ => none) (fun _ => rfl) hr rfl
    | k + 1, he, _ => simp at he
  exact ⟨_, ho, hc, fun dnet net t f' tr h h' => C123_same ho h exLyingDir_short hc h',
    fun net t hn => C123_again ho hc exLyingDir_short hn hn t⟩

end Examples

end Unixfs.Props
