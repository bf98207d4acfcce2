import Verif.Keras.ArgsLemmas

/-!
# C92: one kind of layers after the other
-/

namespace Verif.Keras.Args

/-- The parameters for which the claim holds: the others are ignored without a word (see the negations
below). -/
structure Heard (k : Kind) (g : String) (kw : Kwargs) (name : String) : Prop where
  known : name ∈ (documented k).map Prod.fst
  base : name ∉ ["trainable", "weights", "dtype"]
  activity : name = "activity_regularizer" → k ∈ [.dense, .conv2d, .depthwise]
  shape : name = "batch_input_shape" → kw.lookup "input_shape" = none ∨ kw.lookup "batch_input_shape" ≠ none
  format : name = "data_format" → k ∈ [.maxpool, .avgpool] → g = "channels_last" ∨ value (documented k) kw name ≠ .none
  activation : name = "activation" → k ∈ [.conv2d, .depthwise] → ∃ a, activationOf (value (documented k) kw name) = .ok a

set_option hygiene false in
/-- A parameter of the base class that is ignored. -/
local macro "base_arg" : tactic => `(tactic| exact absurd (by simp) hn.base)

set_option hygiene false in
/-- A parameter that must have its default. -/
local macro "checked_arg" n:str : tactic => `(tactic| (
  refine ⟨_, asked_plain (by decide), ?_⟩
  rw [same _ (by decide), acts_append (by decide)]
  obtain ⟨d, hd, he⟩ := hk $n (by decide)
  rw [he]
  simp [tfDefault] at hd
  subst hd
  rfl))

set_option hygiene false in
/-- A parameter that is used as it is. -/
local macro "plain_arg" : tactic => `(tactic| (
  refine ⟨_, asked_plain (by decide), ?_⟩
  rw [same _ (by decide), acts_append (by decide)]
  rfl))

set_option hygiene false in
/-- The shape of a batch. -/
local macro "shape_arg" : tactic => `(tactic| (
  refine ⟨_, asked_shape, ?_⟩
  rw [batchOf_plain (hn.shape rfl), acts_batch (by rfl) (by
    rw [lookup_extra (by decide), lookup_extra (by decide)]
    exact hn.shape rfl), lookup_extra (by decide)]))

theorem honoured_dense {g : String} {kw made : Kwargs} {name : String} (h : construct .dense g kw = .ok made)
    (hn : Heard .dense g kw name) :
    ∃ a, asked .dense g kw name = .ok a ∧ a.norm = (acts made name).norm := by
  unfold construct at h
  split at h
  · cases h
  dsimp only at h
  unfold dense at h
  dsimp only at h
  obtain ⟨_, -, h⟩ := bind_ok h
  obtain ⟨units, hu, h⟩ := bind_ok h
  obtain ⟨act, ha, h⟩ := bind_ok h
  obtain ⟨_, hc, h⟩ := bind_ok h
  have hc := refuse_ok hc
  obtain ⟨_, hk, h⟩ := bind_ok h
  have hk := checkAll_ok hk
  cases h
  have hname := hn.known
  simp only [documented, List.map_cons, List.map_nil, List.cons_append, List.nil_append, List.mem_cons,
    List.not_mem_nil, or_false] at hname
  have same : ∀ n ∈ ["units", "activation", "use_bias", "kernel_initializer", "bias_initializer", "kernel_regularizer", "bias_regularizer", "activity_regularizer", "kernel_constraint", "bias_constraint"],
      value (documented .dense) kw n = value (params .dense) kw n := by
    intro n hn
    refine value_same ?_ kw
    simp only [List.mem_cons, List.not_mem_nil, or_false] at hn
    rcases hn with rfl | rfl | rfl | rfl | rfl | rfl | rfl | rfl | rfl | rfl <;> decide
  rcases hname with rfl | rfl | rfl | rfl | rfl | rfl | rfl | rfl | rfl | rfl | rfl | rfl | rfl | rfl
  · exact ⟨units, by simp [asked, same, hu], by rw [acts_append (by decide)]; rfl⟩
  · exact ⟨act, by simp [asked, same, activationGet_ok ha (by simpa using hc)],
      by rw [acts_append (by decide)]; rfl⟩
  · plain_arg
  · plain_arg
  · plain_arg
  · checked_arg "kernel_regularizer"
  · checked_arg "bias_regularizer"
  · checked_arg "kernel_constraint"
  · checked_arg "bias_constraint"
  · base_arg
  · checked_arg "activity_regularizer"
  · base_arg
  · base_arg
  · shape_arg

theorem conv_made {g : String} {v : String → Arg} {rest made : Kwargs} (h : conv2d g v rest = .ok made) :
    ∃ size strides pad form act, pair (v "kernel_size") = .ok size ∧ pair (v "strides") = .ok strides ∧
      padding (v "padding") = .ok pad ∧ format g (v "data_format") = .ok form ∧
      convActivation (v "activation") = .ok act ∧
      (∀ n ∈ ["dilation_rate", "groups", "kernel_regularizer", "bias_regularizer", "activity_regularizer",
        "kernel_constraint", "bias_constraint"], ∃ d, tfDefault .conv2d n = some d ∧ (v n).norm = d.norm) ∧
      made = [("filters", v "filters"), ("kernel_size", size), ("strides", strides), ("padding", pad),
        ("data_format", form), ("activation", act), ("use_bias", v "use_bias"),
        ("kernel_initializer", v "kernel_initializer"), ("bias_initializer", v "bias_initializer")] ++
        batchShape rest := by
  unfold conv2d at h
  obtain ⟨_, -, h⟩ := bind_ok h
  obtain ⟨size, h1, h⟩ := bind_ok h
  obtain ⟨_, -, h⟩ := bind_ok h
  obtain ⟨strides, h2, h⟩ := bind_ok h
  obtain ⟨pad, h3, h⟩ := bind_ok h
  obtain ⟨form, h4, h⟩ := bind_ok h
  obtain ⟨act, h5, h⟩ := bind_ok h
  obtain ⟨_, hk, h⟩ := bind_ok h
  cases h
  exact ⟨size, strides, pad, form, act, h1, h2, h3, h4, h5, checkAll_ok hk, rfl⟩

theorem pair_not_none {a b : Arg} (h : pair a = .ok b) : a ≠ .none := by
  rintro rfl
  cases h

theorem pair_one {a : Arg} (h : a.norm = (Arg.tup [some 1, some 1]).norm) : pair a = .ok (.tup [some 1, some 1]) := by
  cases a with
  | tup l => cases h; rfl
  | _ => cases h

theorem honoured_conv2d {g : String} {kw made : Kwargs} {name : String} (h : construct .conv2d g kw = .ok made)
    (hn : Heard .conv2d g kw name) :
    ∃ a, asked .conv2d g kw name = .ok a ∧ a.norm = (acts made name).norm := by
  unfold construct at h
  split at h
  · cases h
  obtain ⟨size, strides, pad, form, act, h1, h2, h3, h4, h5, hk, rfl⟩ := conv_made h
  have hname := hn.known
  simp only [documented, List.map_cons, List.map_nil, List.cons_append, List.nil_append, List.mem_cons,
    List.not_mem_nil, or_false] at hname
  have same : ∀ n ∈ ["filters", "kernel_size", "strides", "padding", "data_format", "dilation_rate", "groups", "activation", "use_bias", "kernel_initializer", "bias_initializer", "kernel_regularizer", "bias_regularizer", "activity_regularizer", "kernel_constraint", "bias_constraint"],
      value (documented .conv2d) kw n = value (params .conv2d) kw n := by
    intro n hn
    refine value_same ?_ kw
    simp only [List.mem_cons, List.not_mem_nil, or_false] at hn
    rcases hn with rfl | rfl | rfl | rfl | rfl | rfl | rfl | rfl | rfl | rfl | rfl | rfl | rfl | rfl | rfl | rfl <;> decide
  rcases hname with rfl | rfl | rfl | rfl | rfl | rfl | rfl | rfl | rfl | rfl | rfl | rfl | rfl | rfl | rfl | rfl | rfl |
    rfl | rfl | rfl
  · plain_arg
  · exact ⟨size, by simp [asked, same, h1], by rw [acts_append (by decide)]; rfl⟩
  · exact ⟨strides, by simp [asked, same, h2, pair_not_none h2], by rw [acts_append (by decide)]; rfl⟩
  · exact ⟨pad, by simp [asked, same, h3], by rw [acts_append (by decide)]; rfl⟩
  · exact ⟨form, by simp [asked, same, h4], by rw [acts_append (by decide)]; rfl⟩
  · obtain ⟨d, hd, he⟩ := hk "dilation_rate" (by simp)
    simp [tfDefault] at hd
    subst hd
    exact ⟨_, by simp [asked, same, pair_one he]; rfl, by rw [acts_append (by decide)]; rfl⟩
  · checked_arg "groups"
  · obtain ⟨a, ha⟩ := hn.activation rfl (by simp)
    refine ⟨a, by simp [asked, ha], ?_⟩
    rw [same _ (by simp)] at ha
    rw [acts_append (by decide), convActivation_ok h5 ha]
    rfl
  · plain_arg
  · plain_arg
  · plain_arg
  · checked_arg "kernel_regularizer"
  · checked_arg "bias_regularizer"
  · checked_arg "kernel_constraint"
  · checked_arg "bias_constraint"
  · base_arg
  · checked_arg "activity_regularizer"
  · base_arg
  · base_arg
  · shape_arg

theorem depthwise_made {g : String} {kw made : Kwargs} (h : depthwise g kw = .ok made) :
    ∃ size strides pad form act, pair (value (params .depthwise) kw "kernel_size") = .ok size ∧
      pair (value (params .depthwise) kw "strides") = .ok strides ∧
      padding (value (params .depthwise) kw "padding") = .ok pad ∧
      format g (value (params .depthwise) kw "data_format") = .ok form ∧
      convActivation (value (params .depthwise) kw "activation") = .ok act ∧
      (∀ n ∈ ["depthwise_regularizer", "bias_regularizer", "activity_regularizer", "depthwise_constraint",
        "bias_constraint"], ∃ d, tfDefault .depthwise n = some d ∧ (value (params .depthwise) kw n).norm = d.norm) ∧
      (value (documented .depthwise) kw "dilation_rate").norm = (Arg.tup [some 1, some 1]).norm ∧
      ∃ rest, (∀ n ∈ ["input_shape", "batch_input_shape"], rest.lookup n = kw.lookup n) ∧
        made = [("kernel_size", size), ("strides", strides), ("padding", pad),
          ("data_format", form), ("activation", act),
          ("depth_multiplier", value (params .depthwise) kw "depth_multiplier"),
          ("use_bias", value (params .depthwise) kw "use_bias"),
          ("depthwise_initializer", value (params .depthwise) kw "depthwise_initializer"),
          ("bias_initializer", value (params .depthwise) kw "bias_initializer")] ++ batchShape rest := by
  unfold depthwise at h
  dsimp only at h
  obtain ⟨_, -, h⟩ := bind_ok h
  obtain ⟨base, hb, h⟩ := bind_ok h
  obtain ⟨_, hk, h⟩ := bind_ok h
  have hk := checkAll_ok hk
  cases h
  obtain ⟨size, strides, pad, form, act, h1, h2, h3, h4, h5, hc, rfl⟩ := conv_made hb
  refine ⟨size, strides, pad, form, act, h1, h2, h3, h4, h5, hk, ?_, _, ?_, rfl⟩
  · obtain ⟨d, hd, he⟩ := hc "dilation_rate" (by simp)
    simp [tfDefault] at hd
    subst hd
    rw [← he]
    congr 1
    unfold value
    simp only [List.map_cons, List.map_nil, List.cons_append, List.nil_append]
    have : ∀ {a : Arg} {l : Kwargs} {n m : String}, (n == m) = false → List.lookup n ((m, a) :: l) = l.lookup n := by
      intro a l n m h
      simp [List.lookup, h]
    rw [this (by decide), this (by decide), this (by decide), this (by decide), this (by decide), this (by decide),
      this (by decide), this (by decide), this (by decide), this (by decide), lookup_extra (by decide)]
    rfl
  · intro n hn
    have hn' : n = "input_shape" ∨ n = "batch_input_shape" := by simpa using hn
    rw [lookup_extra (by rcases hn' with rfl | rfl <;> decide)]
    simp only [List.map_cons, List.map_nil, List.cons_append, List.nil_append]
    have : ∀ {a : Arg} {l : Kwargs} {n m : String}, (n == m) = false → List.lookup n ((m, a) :: l) = l.lookup n := by
      intro a l n m h
      simp [List.lookup, h]
    rcases hn' with rfl | rfl <;>
    rw [this (by decide), this (by decide), this (by decide), this (by decide), this (by decide), this (by decide),
      this (by decide), this (by decide), this (by decide), this (by decide), lookup_extra (by decide)]

theorem honoured_depthwise {g : String} {kw made : Kwargs} {name : String} (h : construct .depthwise g kw = .ok made)
    (hn : Heard .depthwise g kw name) :
    ∃ a, asked .depthwise g kw name = .ok a ∧ a.norm = (acts made name).norm := by
  unfold construct at h
  split at h
  · cases h
  obtain ⟨size, strides, pad, form, act, h1, h2, h3, h4, h5, hk, hd, rest, hr, rfl⟩ := depthwise_made h
  have hname := hn.known
  simp only [documented, List.map_cons, List.map_nil, List.cons_append, List.nil_append, List.mem_cons,
    List.not_mem_nil, or_false] at hname
  have same : ∀ n ∈ ["kernel_size", "strides", "padding", "depth_multiplier", "data_format", "activation", "use_bias",
      "depthwise_initializer", "bias_initializer", "depthwise_regularizer", "bias_regularizer",
      "activity_regularizer", "depthwise_constraint", "bias_constraint"],
      value (documented .depthwise) kw n = value (params .depthwise) kw n := by
    intro n hn
    refine value_same ?_ kw
    simp only [List.mem_cons, List.not_mem_nil, or_false] at hn
    rcases hn with rfl | rfl | rfl | rfl | rfl | rfl | rfl | rfl | rfl | rfl | rfl | rfl | rfl | rfl <;> decide
  rcases hname with rfl | rfl | rfl | rfl | rfl | rfl | rfl | rfl | rfl | rfl | rfl | rfl | rfl | rfl | rfl | rfl | rfl |
    rfl | rfl
  · exact ⟨size, by simp [asked, same, h1], by rw [acts_append (by decide)]; rfl⟩
  · exact ⟨strides, by simp [asked, same, h2, pair_not_none h2], by rw [acts_append (by decide)]; rfl⟩
  · exact ⟨pad, by simp [asked, same, h3], by rw [acts_append (by decide)]; rfl⟩
  · plain_arg
  · exact ⟨form, by simp [asked, same, h4], by rw [acts_append (by decide)]; rfl⟩
  · exact ⟨_, by simp [asked, pair_one hd]; rfl, by rw [acts_append (by decide)]; rfl⟩
  · obtain ⟨a, ha⟩ := hn.activation rfl (by simp)
    refine ⟨a, by simp [asked, ha], ?_⟩
    rw [same _ (by simp)] at ha
    rw [acts_append (by decide), convActivation_ok h5 ha]
    rfl
  · plain_arg
  · plain_arg
  · plain_arg
  · checked_arg "depthwise_regularizer"
  · checked_arg "bias_regularizer"
  · checked_arg "depthwise_constraint"
  · checked_arg "bias_constraint"
  · base_arg
  · checked_arg "activity_regularizer"
  · base_arg
  · base_arg
  · refine ⟨_, asked_shape, ?_⟩
    rw [batchOf_plain (hn.shape rfl), acts_batch (by rfl) (by
      rw [hr _ (by simp), hr _ (by simp)]
      exact hn.shape rfl), hr _ (by simp)]

theorem axis_ok {a b : Arg} (h : normAxis a = .ok b) : axisOf4 (firstAxis a) = b.norm := by
  unfold normAxis at h
  split at h
  · rename_i hc
    cases h
    generalize firstAxis a = c at hc ⊢
    have hc' : c.norm = .num 1 ∨ c.norm = .num 3 := by
      rcases hc with hc | hc
      · exact Or.inl (of_decide_eq_true hc)
      · exact Or.inr (of_decide_eq_true hc)
    cases c with
    | num q =>
      simp only [Arg.norm, Arg.num.injEq] at hc'
      rcases hc' with rfl | rfl <;> simp [axisOf4, Arg.norm]
    | _ => rfl
  · cases h

theorem norm_norm (a : Arg) : a.norm.norm = a.norm := by cases a <;> rfl

theorem honoured_batchnorm {g : String} {kw made : Kwargs} {name : String} (h : construct .batchnorm g kw = .ok made)
    (hn : Heard .batchnorm g kw name) :
    ∃ a, asked .batchnorm g kw name = .ok a ∧ a.norm = (acts made name).norm := by
  unfold construct at h
  split at h
  · cases h
  dsimp only at h
  unfold batchnorm at h
  dsimp only at h
  obtain ⟨_, -, h⟩ := bind_ok h
  obtain ⟨_, hk, h⟩ := bind_ok h
  have hk := checkAll_ok hk
  obtain ⟨axis, ha, h⟩ := bind_ok h
  cases h
  have hname := hn.known
  simp only [documented, List.map_cons, List.map_nil, List.cons_append, List.nil_append, List.mem_cons,
    List.not_mem_nil, or_false] at hname
  have same : ∀ n ∈ ["epsilon", "center", "scale", "beta_initializer", "gamma_initializer",
      "moving_mean_initializer", "moving_variance_initializer", "beta_regularizer", "gamma_regularizer",
      "beta_constraint", "gamma_constraint"],
      value (documented .batchnorm) kw n = value (params .batchnorm) kw n := by
    intro n hn
    refine value_same ?_ kw
    simp only [List.mem_cons, List.not_mem_nil, or_false] at hn
    rcases hn with rfl | rfl | rfl | rfl | rfl | rfl | rfl | rfl | rfl | rfl | rfl <;> rfl
  rcases hname with rfl | rfl | rfl | rfl | rfl | rfl | rfl | rfl | rfl | rfl | rfl | rfl | rfl | rfl | rfl | rfl | rfl
  · refine ⟨_, by simp [asked]; rfl, ?_⟩
    have e : axisOf4 (firstAxis (value (documented .batchnorm) kw "axis")) = axis.norm := by
      rw [← axis_ok ha]
      unfold value
      cases kw.lookup "axis" with
      | some a => rfl
      | none => simp [documented, params, List.lookup, firstAxis, axisOf4]; norm_num
    rw [e, acts_append (by decide), norm_norm]
    rfl
  · plain_arg
  · plain_arg
  · plain_arg
  · plain_arg
  · plain_arg
  · plain_arg
  · plain_arg
  · checked_arg "beta_regularizer"
  · checked_arg "gamma_regularizer"
  · checked_arg "beta_constraint"
  · checked_arg "gamma_constraint"
  · base_arg
  · exact absurd (hn.activity rfl) (by decide)
  · base_arg
  · base_arg
  · shape_arg

theorem honoured_pooling {k : Kind} (hk : k = .maxpool ∨ k = .avgpool) {g : String} {kw made : Kwargs} {name : String} (h : construct k g kw = .ok made) (hn : Heard k g kw name) :
    ∃ a, asked k g kw name = .ok a ∧ a.norm = (acts made name).norm := by
  have h : pooling k g kw = .ok made := by
    unfold construct at h
    split at h
    · cases h
    rcases hk with rfl | rfl <;> exact h
  unfold pooling at h
  dsimp only at h
  obtain ⟨_, -, h⟩ := bind_ok h
  obtain ⟨size, h1, h⟩ := bind_ok h
  obtain ⟨strides, h2, h⟩ := bind_ok h
  obtain ⟨pad, h3, h⟩ := bind_ok h
  obtain ⟨form, h4, h⟩ := bind_ok h
  cases h
  have hname : name ∈ ["pool_size", "strides", "padding", "data_format", "trainable", "activity_regularizer", "weights",
      "dtype", "batch_input_shape"] := by
    have hm := hn.known
    rcases hk with hk | hk <;> (rw [hk] at hm; exact hm)
  have same : ∀ n ∈ ["pool_size", "strides", "padding", "data_format"],
      value (documented k) kw n = value (params k) kw n := by
    intro n hm
    refine value_same ?_ kw
    simp only [List.mem_cons, List.not_mem_nil, or_false] at hm
    rcases hk with rfl | rfl <;> rcases hm with rfl | rfl | rfl | rfl <;> decide
  have free : ∀ n ∈ ["input_shape", "batch_input_shape"], ((params k).lookup n).isNone = true := by
    intro n hn
    have hn' : n = "input_shape" ∨ n = "batch_input_shape" := by simpa using hn
    rcases hk with rfl | rfl <;> rcases hn' with rfl | rfl <;> decide
  simp only [List.mem_cons, List.not_mem_nil, or_false] at hname
  rcases hname with rfl | rfl | rfl | rfl | rfl | rfl | rfl | rfl | rfl
  · exact ⟨size, by simp [asked, same, h1], by rw [acts_append (by decide)]; rfl⟩
  · exact ⟨strides, by simp [asked, same, h2], by rw [acts_append (by decide)]; rfl⟩
  · exact ⟨pad, by simp [asked, same, h3], by rw [acts_append (by decide)]; rfl⟩
  · refine ⟨form, ?_, by rw [acts_append (by decide)]; rfl⟩
    have := hn.format rfl (by rcases hk with rfl | rfl <;> simp)
    rw [same _ (by simp)] at this
    have e : asked k g kw "data_format" = format g (value (params k) kw "data_format") := by
      rw [← same _ (by simp)]
      simp [asked]
    rw [e]
    split at h4
    · rename_i he
      rw [he] at this ⊢
      have hl : g = "channels_last" := by simpa using this
      rw [hl] at h4 ⊢
      rw [← h4]
      show _ = (if "channels_last".toLower ∈ _ then _ else _)
      rw [show "channels_last".toLower = "channels_last" by decide +kernel, if_pos (by simp)]
      rfl
    · exact h4
  · base_arg
  · exact absurd (hn.activity rfl) (by rcases hk with rfl | rfl <;> decide)
  · base_arg
  · base_arg
  · refine ⟨_, asked_shape, ?_⟩
    rw [batchOf_plain (hn.shape rfl), acts_batch (by rfl) (by
      rw [lookup_extra (free _ (by simp)), lookup_extra (free _ (by simp))]
      exact hn.shape rfl), lookup_extra (free _ (by simp))]

theorem honoured_globalpool {g : String} {kw made : Kwargs} {name : String}
    (h : construct .globalpool g kw = .ok made) (hn : Heard .globalpool g kw name) :
    ∃ a, asked .globalpool g kw name = .ok a ∧ a.norm = (acts made name).norm := by
  unfold construct at h
  split at h
  · cases h
  dsimp only at h
  obtain ⟨_, -, h⟩ := bind_ok h
  obtain ⟨form, h1, h⟩ := bind_ok h
  cases h
  have hname := hn.known
  simp only [documented, List.map_cons, List.map_nil, List.cons_append, List.nil_append, List.mem_cons,
    List.not_mem_nil, or_false] at hname
  have same : ∀ n ∈ ["data_format", "keepdims"],
      value (documented .globalpool) kw n = value (params .globalpool) kw n := by
    intro n hm
    refine value_same ?_ kw
    simp only [List.mem_cons, List.not_mem_nil, or_false] at hm
    rcases hm with rfl | rfl <;> decide
  rcases hname with rfl | rfl | rfl | rfl | rfl | rfl | rfl
  · exact ⟨form, by simp [asked, same, h1], by rw [acts_append (by decide)]; rfl⟩
  · plain_arg
  · base_arg
  · exact absurd (hn.activity rfl) (by decide)
  · base_arg
  · base_arg
  · shape_arg

theorem honoured_flatten {g : String} {kw made : Kwargs} {name : String}
    (h : construct .flatten g kw = .ok made) (hn : Heard .flatten g kw name) :
    ∃ a, asked .flatten g kw name = .ok a ∧ a.norm = (acts made name).norm := by
  unfold construct at h
  split at h
  · cases h
  dsimp only at h
  obtain ⟨_, -, h⟩ := bind_ok h
  obtain ⟨form, h1, h⟩ := bind_ok h
  cases h
  rw [← List.singleton_append]
  have hname := hn.known
  simp only [documented, List.map_cons, List.map_nil, List.cons_append, List.nil_append, List.mem_cons,
    List.not_mem_nil, or_false] at hname
  have same : ∀ n ∈ ["data_format"], value (documented .flatten) kw n = value (params .flatten) kw n := by
    intro n hm
    refine value_same ?_ kw
    simp only [List.mem_cons, List.not_mem_nil, or_false] at hm
    subst hm
    decide
  rcases hname with rfl | rfl | rfl | rfl | rfl | rfl
  · exact ⟨form, by simp [asked, same, h1], by rw [acts_append (by decide)]; rfl⟩
  · base_arg
  · exact absurd (hn.activity rfl) (by decide)
  · base_arg
  · base_arg
  · shape_arg

theorem honoured_reshape {g : String} {kw made : Kwargs} {name : String}
    (h : construct .reshape g kw = .ok made) (hn : Heard .reshape g kw name) :
    ∃ a, asked .reshape g kw name = .ok a ∧ a.norm = (acts made name).norm := by
  unfold construct at h
  split at h
  · cases h
  dsimp only at h
  obtain ⟨_, -, h⟩ := bind_ok h
  obtain ⟨shape, h1, h⟩ := bind_ok h
  cases h
  rw [← List.singleton_append]
  have hname := hn.known
  simp only [documented, List.map_cons, List.map_nil, List.cons_append, List.nil_append, List.mem_cons,
    List.not_mem_nil, or_false] at hname
  have same : ∀ n ∈ ["target_shape"], value (documented .reshape) kw n = value (params .reshape) kw n := by
    intro n hm
    refine value_same ?_ kw
    simp only [List.mem_cons, List.not_mem_nil, or_false] at hm
    subst hm
    decide
  rcases hname with rfl | rfl | rfl | rfl | rfl | rfl
  · exact ⟨shape, by simp [asked, same, h1], by rw [acts_append (by decide)]; rfl⟩
  · base_arg
  · exact absurd (hn.activity rfl) (by decide)
  · base_arg
  · base_arg
  · shape_arg

theorem honoured_relu {g : String} {kw made : Kwargs} {name : String}
    (h : construct .relu g kw = .ok made) (hn : Heard .relu g kw name) :
    ∃ a, asked .relu g kw name = .ok a ∧ a.norm = (acts made name).norm := by
  unfold construct at h
  split at h
  · cases h
  dsimp only at h
  obtain ⟨_, -, h⟩ := bind_ok h
  obtain ⟨_, hk, h⟩ := bind_ok h
  have hk := checkAll_ok hk
  cases h
  rw [← List.nil_append (batchShape _)]
  have hname := hn.known
  simp only [documented, List.map_cons, List.map_nil, List.cons_append, List.nil_append, List.mem_cons,
    List.not_mem_nil, or_false] at hname
  have same : ∀ n ∈ ["max_value", "negative_slope", "threshold"],
      value (documented .relu) kw n = value (params .relu) kw n := by
    intro n hm
    refine value_same ?_ kw
    simp only [List.mem_cons, List.not_mem_nil, or_false] at hm
    rcases hm with rfl | rfl | rfl <;> decide
  rcases hname with rfl | rfl | rfl | rfl | rfl | rfl | rfl | rfl
  · checked_arg "max_value"
  · checked_arg "negative_slope"
  · checked_arg "threshold"
  · base_arg
  · exact absurd (hn.activity rfl) (by decide)
  · base_arg
  · base_arg
  · shape_arg

theorem honoured_activation {g : String} {kw made : Kwargs} {name : String}
    (h : construct .activation g kw = .ok made) (hn : Heard .activation g kw name) :
    ∃ a, asked .activation g kw name = .ok a ∧ a.norm = (acts made name).norm := by
  unfold construct at h
  split at h
  · cases h
  dsimp only at h
  obtain ⟨_, -, h⟩ := bind_ok h
  obtain ⟨act, ha, h⟩ := bind_ok h
  obtain ⟨_, hc, h⟩ := bind_ok h
  have hc := refuse_ok hc
  cases h
  rw [← List.singleton_append]
  have hname := hn.known
  simp only [documented, List.map_cons, List.map_nil, List.cons_append, List.nil_append, List.mem_cons,
    List.not_mem_nil, or_false] at hname
  have same : ∀ n ∈ ["activation"], value (documented .activation) kw n = value (params .activation) kw n := by
    intro n hm
    refine value_same ?_ kw
    simp only [List.mem_cons, List.not_mem_nil, or_false] at hm
    subst hm
    decide
  rcases hname with rfl | rfl | rfl | rfl | rfl | rfl
  · exact ⟨act, by simp [asked, same, activationGet_ok ha (by simpa using hc)],
      by rw [acts_append (by decide)]; rfl⟩
  · base_arg
  · exact absurd (hn.activity rfl) (by decide)
  · base_arg
  · base_arg
  · shape_arg

/-! ## Arguments without effect -/

theorem value_cons {ps : List (String × Option Arg)} {n m : String} (h : (m == n) = false) (a : Arg) (kw : Kwargs) :
    value ps ((n, a) :: kw) m = value ps kw m := by
  unfold value
  rw [List.lookup, h]

theorem bound_cons {ps : List (String × Option Arg)} {n : String} (h : ∀ p ∈ ps, (p.1 == n) = false) (a : Arg)
    (kw : Kwargs) : bound ps ((n, a) :: kw) = bound ps kw := by
  unfold bound
  rw [Bool.eq_iff_iff, List.all_eq_true, List.all_eq_true]
  refine forall₂_congr fun p hp => ?_
  rw [List.lookup, h p hp]

theorem extra_cons {ps : List (String × Option Arg)} {n : String} (h : (ps.lookup n).isNone = true) (a : Arg)
    (kw : Kwargs) : extra ps ((n, a) :: kw) = (n, a) :: extra ps kw := List.filter_cons_of_pos (by simpa using h)

theorem layerInit_cons {n : String} (h : n ∈ ["trainable", "weights", "dtype"]) (a : Arg) (rest : Kwargs) :
    layerInit ((n, a) :: rest) = layerInit rest := by
  unfold layerInit
  rw [List.all_cons]
  have : decide (n ∈ ["trainable", "name", "input_shape", "batch_input_shape", "batch_size", "weights",
      "activity_regularizer", "dtype", "lazy_normalization"]) = true := by
    simp only [List.mem_cons, List.not_mem_nil, or_false] at h
    rcases h with rfl | rfl | rfl <;> decide
  dsimp only
  rw [this, Bool.true_and]

theorem batchShape_cons {n : String} (h : n ∈ ["trainable", "weights", "dtype"]) (a : Arg) (rest : Kwargs) :
    batchShape ((n, a) :: rest) = batchShape rest := by
  have h1 : ("batch_input_shape" == n) = false ∧ ("input_shape" == n) = false := by
    simp only [List.mem_cons, List.not_mem_nil, or_false] at h
    rcases h with rfl | rfl | rfl <;> decide
  unfold batchShape
  rw [List.lookup, h1.1]
  dsimp only
  rw [List.lookup_cons, h1.2]

theorem conv2d_congr {g : String} {v v' : String → Arg} {rest rest' : Kwargs}
    (hv : ∀ m ∈ (params .conv2d).map Prod.fst, v m = v' m) (hl : layerInit rest = layerInit rest')
    (hb : batchShape rest = batchShape rest') : conv2d g v rest = conv2d g v' rest' := by
  have h := fun m (hm : m ∈ ["filters", "kernel_size", "strides", "padding", "data_format", "dilation_rate", "groups",
    "activation", "use_bias", "kernel_initializer", "bias_initializer", "kernel_regularizer", "bias_regularizer",
    "activity_regularizer", "kernel_constraint", "bias_constraint"]) => hv m hm
  simp only [conv2d, checkAll, hl, hb, h "filters" (by simp), h "kernel_size" (by simp), h "strides" (by simp),
    h "padding" (by simp), h "data_format" (by simp), h "dilation_rate" (by simp), h "groups" (by simp),
    h "activation" (by simp), h "use_bias" (by simp), h "kernel_initializer" (by simp),
    h "bias_initializer" (by simp), h "kernel_regularizer" (by simp), h "bias_regularizer" (by simp),
    h "activity_regularizer" (by simp), h "kernel_constraint" (by simp), h "bias_constraint" (by simp)]

theorem lookup_middle {m n : String} {a : Arg} {l r : Kwargs} (hm : (m == n) = false) :
    (l ++ (n, a) :: r).lookup m = (l ++ r).lookup m := by
  induction l with
  | nil => rw [List.nil_append, List.nil_append, List.lookup, hm]
  | cons b l ih =>
    obtain ⟨k, b⟩ := b
    rw [List.cons_append, List.cons_append, List.lookup, List.lookup, ih]

theorem batchShape_middle {n : String} (h : n ∈ ["trainable", "weights", "dtype"]) (a : Arg) (l r : Kwargs) :
    batchShape (extra (params .conv2d) (l ++ (n, a) :: r)) = batchShape (extra (params .conv2d) (l ++ r)) := by
  have h1 : ("batch_input_shape" == n) = false ∧ ("input_shape" == n) = false := by
    simp only [List.mem_cons, List.not_mem_nil, or_false] at h
    rcases h with rfl | rfl | rfl <;> decide
  unfold batchShape
  rw [lookup_extra (by decide), lookup_extra (by decide), lookup_extra (by decide), lookup_extra (by decide),
    lookup_middle h1.1, lookup_middle h1.2]

/-- The same with the argument in the middle of the others. -/
theorem conv2d_middle {g n : String} (h : n ∈ ["trainable", "weights", "dtype"]) (a : Arg) (l r : Kwargs) :
    conv2d g (value (params .conv2d) (l ++ (n, a) :: r)) (extra (params .conv2d) (l ++ (n, a) :: r)) =
      conv2d g (value (params .conv2d) (l ++ r)) (extra (params .conv2d) (l ++ r)) := by
  have look := fun m => lookup_middle (m := m) (n := n) (a := a) (l := l) (r := r)
  have h1 : ∀ m ∈ (params .conv2d).map Prod.fst ++ ["batch_input_shape", "input_shape"], (m == n) = false := by
    simp only [List.mem_cons, List.not_mem_nil, or_false] at h
    rcases h with rfl | rfl | rfl <;> decide
  have h2 : ((params .conv2d).lookup n).isNone = true := by
    simp only [List.mem_cons, List.not_mem_nil, or_false] at h
    rcases h with rfl | rfl | rfl <;> decide
  refine conv2d_congr (fun m hm => ?_) ?_ ?_
  · unfold value
    rw [look m (h1 m (List.mem_append_left _ hm))]
  · have e : extra (params .conv2d) (l ++ (n, a) :: r) =
        extra (params .conv2d) l ++ (n, a) :: extra (params .conv2d) r := by
      rw [← extra_cons h2]
      exact List.filter_append ..
    have e' : extra (params .conv2d) (l ++ r) = extra (params .conv2d) l ++ extra (params .conv2d) r :=
      List.filter_append ..
    have : decide (n ∈ ["trainable", "name", "input_shape", "batch_input_shape", "batch_size", "weights",
        "activity_regularizer", "dtype", "lazy_normalization"]) = true := by
      simp only [List.mem_cons, List.not_mem_nil, or_false] at h
      rcases h with rfl | rfl | rfl <;> decide
    rw [e, e']
    unfold layerInit
    rw [List.all_append, List.all_append, List.all_cons]
    dsimp only
    rw [this, Bool.true_and]
  · exact batchShape_middle h a l r

set_option maxHeartbeats 1000000 in
theorem ignored {k : Kind} {g : String} {kw : Kwargs} {name : String} (hn : name ∈ ["trainable", "weights", "dtype"])
    (a : Arg) : construct k g ((name, a) :: kw) = construct k g kw := by
  have hp : ∀ p ∈ params k, (p.1 == name) = false := by
    simp only [List.mem_cons, List.not_mem_nil, or_false] at hn
    rcases hn with rfl | rfl | rfl <;> cases k <;> (intro p hp; revert p; simp [params])
  have hx : ((params k).lookup name).isNone = true := by
    simp only [List.mem_cons, List.not_mem_nil, or_false] at hn
    rcases hn with rfl | rfl | rfl <;> cases k <;> decide
  have hv : ∀ m ∈ (params k).map Prod.fst, value (params k) ((name, a) :: kw) m = value (params k) kw m := by
    intro m hm
    obtain ⟨p, hm', rfl⟩ := List.mem_map.1 hm
    exact value_cons (hp p hm') a kw
  unfold construct
  rw [bound_cons hp]
  congr 1
  cases k <;> dsimp only
  case dense =>
    simp only [dense, checkAll, extra_cons hx, layerInit_cons hn, batchShape_cons hn]
    rw [hv "units" (by simp [params]), hv "activation" (by simp [params]), hv "use_bias" (by simp [params]),
      hv "kernel_initializer" (by simp [params]), hv "bias_initializer" (by simp [params]),
      hv "kernel_regularizer" (by simp [params]), hv "bias_regularizer" (by simp [params]),
      hv "activity_regularizer" (by simp [params]), hv "kernel_constraint" (by simp [params]),
      hv "bias_constraint" (by simp [params])]
  case conv2d =>
    rw [extra_cons hx]
    exact conv2d_congr hv (layerInit_cons hn _ _) (batchShape_cons hn _ _)
  case depthwise =>
    have hf : ("filters" == name) = false := by
      simp only [List.mem_cons, List.not_mem_nil, or_false] at hn
      rcases hn with rfl | rfl | rfl <;> decide
    simp only [depthwise, checkAll, List.map_cons, List.map_nil]
    rw [hv "kernel_size" (by simp [params]), hv "strides" (by simp [params]), hv "padding" (by simp [params]),
      hv "depth_multiplier" (by simp [params]), hv "data_format" (by simp [params]),
      hv "activation" (by simp [params]), hv "use_bias" (by simp [params]),
      hv "depthwise_initializer" (by simp [params]), hv "bias_initializer" (by simp [params]),
      hv "depthwise_regularizer" (by simp [params]), hv "bias_regularizer" (by simp [params]),
      hv "activity_regularizer" (by simp [params]), hv "depthwise_constraint" (by simp [params]),
      hv "bias_constraint" (by simp [params]), extra_cons hx, conv2d_middle hn, List.lookup, hf,
      batchShape_middle hn]
  case batchnorm =>
    simp only [batchnorm, checkAll, extra_cons hx, layerInit_cons hn, batchShape_cons hn]
    rw [hv "axis" (by simp [params]), hv "epsilon" (by simp [params]), hv "center" (by simp [params]),
      hv "scale" (by simp [params]), hv "beta_initializer" (by simp [params]), hv "gamma_initializer" (by simp [params]),
      hv "moving_mean_initializer" (by simp [params]), hv "moving_variance_initializer" (by simp [params]),
      hv "beta_regularizer" (by simp [params]), hv "gamma_regularizer" (by simp [params]),
      hv "beta_constraint" (by simp [params]), hv "gamma_constraint" (by simp [params])]
  case maxpool =>
    simp only [pooling, extra_cons hx, layerInit_cons hn, batchShape_cons hn]
    rw [hv "pool_size" (by simp [params]), hv "strides" (by simp [params]), hv "padding" (by simp [params]),
      hv "data_format" (by simp [params])]
  case avgpool =>
    simp only [pooling, extra_cons hx, layerInit_cons hn, batchShape_cons hn]
    rw [hv "pool_size" (by simp [params]), hv "strides" (by simp [params]), hv "padding" (by simp [params]),
      hv "data_format" (by simp [params])]
  case globalpool =>
    simp only [extra_cons hx, layerInit_cons hn, batchShape_cons hn]
    rw [hv "data_format" (by simp [params]), hv "keepdims" (by simp [params])]
  case flatten =>
    simp only [extra_cons hx, layerInit_cons hn, batchShape_cons hn]
    rw [hv "data_format" (by simp [params])]
  case reshape =>
    simp only [extra_cons hx, layerInit_cons hn, batchShape_cons hn]
    rw [hv "target_shape" (by simp [params])]
  case relu =>
    simp only [checkAll, extra_cons hx, layerInit_cons hn, batchShape_cons hn]
    rw [hv "max_value" (by simp [params]), hv "negative_slope" (by simp [params]), hv "threshold" (by simp [params])]
  case activation =>
    simp only [extra_cons hx, layerInit_cons hn, batchShape_cons hn]
    rw [hv "activation" (by simp [params])]

/-- Does a construction succeed, with a certain result? -/
def okWith (x : Except Err Kwargs) (p : Kwargs → Bool) : Bool :=
  match x with
  | .ok m => p m
  | .error _ => false

theorem exists_ok {x : Except Err Kwargs} {P : Kwargs → Prop} [DecidablePred P] (h : okWith x (fun m => decide (P m)) = true) :
    ∃ made, x = .ok made ∧ P made := by
  cases x with
  | error e => cases h
  | ok m => exact ⟨m, rfl, of_decide_eq_true h⟩

end Verif.Keras.Args
