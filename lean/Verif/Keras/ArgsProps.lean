import Verif.Keras.ArgsKinds

/-!
# C92: a layer honours its arguments or refuses them
-/

namespace Verif.Keras.Args

/-- C92: **a layer that can be constructed works according to its arguments**: for every documented
parameter but the ones in the negations below, it does what the arguments ask for, with the documented
default for what is not given. -/
theorem honoured_partial {k : Kind} {g : String} {kw made : Kwargs} {name : String}
    (h : construct k g kw = .ok made) (hn : Heard k g kw name) :
    ∃ a, asked k g kw name = .ok a ∧ a.norm = (acts made name).norm := by
  cases k with
  | dense => exact honoured_dense h hn
  | conv2d => exact honoured_conv2d h hn
  | depthwise => exact honoured_depthwise h hn
  | batchnorm => exact honoured_batchnorm h hn
  | maxpool => exact honoured_pooling (.inl rfl) h hn
  | avgpool => exact honoured_pooling (.inr rfl) h hn
  | globalpool => exact honoured_globalpool h hn
  | flatten => exact honoured_flatten h hn
  | reshape => exact honoured_reshape h hn
  | relu => exact honoured_relu h hn
  | activation => exact honoured_activation h hn

/-- A convolution as it might be constructed. -/
def sampleConv : Kwargs :=
  [("filters", .num 16), ("kernel_size", .num 3), ("padding", .str "SAME"), ("data_format", .str "channels_first"),
    ("activation", .str "relu"), ("batch_input_shape", .tup [some 1, some 3, some 28, some 28])]

/-- It is accepted, and the theorem applies: the kernel is three by three, the padding is "same", the
strides are one. -/
example : (∃ made, construct .conv2d "channels_last" sampleConv = .ok made ∧
    acts made "kernel_size" = .tup [some 3, some 3] ∧ acts made "padding" = .str "same" ∧
    acts made "strides" = .tup [some 1, some 1]) ∧
    Heard .conv2d "channels_last" sampleConv "kernel_size" ∧ Heard .conv2d "channels_last" sampleConv "strides" := by
  refine ⟨exists_ok (by decide +kernel), ?_, ?_⟩
  all_goals exact
    { known := by decide +kernel, base := by decide +kernel, activity := by decide +kernel, shape := by decide +kernel,
      format := by decide +kernel, activation := fun h => absurd h (by decide +kernel) }

/-- C92: an argument that is neither a parameter nor known to the base class is refused. -/
theorem unknown_refused {k : Kind} {g : String} {kw : Kwargs} {name : String} {a : Arg} (hk : (name, a) ∈ kw)
    (h1 : (params k).lookup name = none) (h2 : k = .depthwise → (params .conv2d).lookup name = none)
    (h3 : name ∉ ["trainable", "name", "input_shape", "batch_input_shape", "batch_size", "weights",
      "activity_regularizer", "dtype", "lazy_normalization"]) (made : Kwargs) :
    construct k g kw ≠ .ok made := by
  have bad : ∀ {rest : Kwargs} {u : Unit}, (name, a) ∈ rest → layerInit rest ≠ .ok u := by
    intro rest u hm h
    unfold layerInit at h
    split at h
    · rename_i hall
      exact h3 (by simpa using List.all_eq_true.1 hall _ hm)
    · cases h
  have mem : ∀ {ps : List (String × Option Arg)} {l : Kwargs}, ps.lookup name = none → (name, a) ∈ l →
      (name, a) ∈ extra ps l := fun hp hl => List.mem_filter.2 ⟨hl, by simp [hp]⟩
  intro h
  unfold construct at h
  split at h
  · cases h
  cases k with
  | dense => obtain ⟨_, hl, -⟩ := bind_ok h; exact bad (mem h1 hk) hl
  | conv2d => obtain ⟨_, hl, -⟩ := bind_ok h; exact bad (mem h1 hk) hl
  | depthwise =>
    obtain ⟨_, -, h⟩ := bind_ok h
    obtain ⟨_, h, -⟩ := bind_ok h
    obtain ⟨_, hl, -⟩ := bind_ok h
    exact bad (mem (h2 rfl) (List.mem_append_right _ (mem h1 hk))) hl
  | batchnorm => obtain ⟨_, hl, -⟩ := bind_ok h; exact bad (mem h1 hk) hl
  | maxpool => obtain ⟨_, hl, -⟩ := bind_ok h; exact bad (mem h1 hk) hl
  | avgpool => obtain ⟨_, hl, -⟩ := bind_ok h; exact bad (mem h1 hk) hl
  | globalpool => obtain ⟨_, hl, -⟩ := bind_ok h; exact bad (mem h1 hk) hl
  | flatten => obtain ⟨_, hl, -⟩ := bind_ok h; exact bad (mem h1 hk) hl
  | reshape => obtain ⟨_, hl, -⟩ := bind_ok h; exact bad (mem h1 hk) hl
  | relu => obtain ⟨_, hl, -⟩ := bind_ok h; exact bad (mem h1 hk) hl
  | activation => obtain ⟨_, hl, -⟩ := bind_ok h; exact bad (mem h1 hk) hl

/-- A misspelt parameter. -/
example (made : Kwargs) : construct .dense "channels_last" [("units", .num 3), ("use_bais", .bool false)] ≠ .ok made :=
  unknown_refused (name := "use_bais") (a := .bool false) (by simp) (by decide) (by decide) (by decide) made

/-- C92 is false: **`trainable`, `weights` and `dtype` are ignored**, for every layer, whatever else is
given: the layer is the one constructed without them, and where it fails it fails in the same way. -/
theorem ignored_false {k : Kind} {g : String} {kw : Kwargs} {name : String}
    (hn : name ∈ ["trainable", "weights", "dtype"]) (a : Arg) :
    construct k g ((name, a) :: kw) = construct k g kw :=
  ignored hn a

/-- C92 is false: a layer that is to be frozen is constructed and trained like the others. -/
theorem frozen_false : ∃ made, construct .dense "channels_last" [("units", .num 10), ("trainable", .bool false)] = .ok made ∧
    asked .dense "channels_last" [("units", .num 10), ("trainable", .bool false)] "trainable" = .ok (.bool false) ∧
    acts made "trainable" = .bool true :=
  exists_ok (by decide +kernel)

/-- C92 is false: a regularizer of the activity, refused by `Dense`, is accepted and ignored by `ReLU`. -/
theorem activity_false : ∃ made, construct .relu "channels_last" [("activity_regularizer", .obj 0)] = .ok made ∧
    asked .relu "channels_last" [("activity_regularizer", .obj 0)] "activity_regularizer" = .ok (.obj 0) ∧
    acts made "activity_regularizer" = .none :=
  exists_ok (by decide +kernel)

/-- C92 is false: `input_shape`, the shape of a sample, is taken for the shape of a batch. -/
theorem input_shape_false : ∃ made, construct .dense "channels_last" [("units", .num 10), ("input_shape", .tup [some 784])] = .ok made ∧
    asked .dense "channels_last" [("units", .num 10), ("input_shape", .tup [some 784])] "batch_input_shape" =
      .ok (.tup [none, some 784]) ∧
    acts made "batch_input_shape" = .tup [some 784] :=
  exists_ok (by decide +kernel)

/-- C92 is false: a pooling layer without data format ignores the setting of the backend, which a
convolution follows. -/
theorem pool_format_false :
    (∃ made, construct .maxpool "channels_first" [] = .ok made ∧ acts made "data_format" = .str "channels_last") ∧
    asked .maxpool "channels_first" [] "data_format" = .ok (.str "channels_first") ∧
    ∃ made, construct .conv2d "channels_first" [("filters", .num 1), ("kernel_size", .num 1)] = .ok made ∧
      acts made "data_format" = .str "channels_first" :=
  ⟨exists_ok (by decide +kernel), by decide +kernel, exists_ok (by decide +kernel)⟩

/-- C92 is false: a convolution takes an activation that is none for the linear one. -/
theorem conv_activation_false : ∃ made,
    construct .conv2d "channels_last" [("filters", .num 1), ("kernel_size", .num 1), ("activation", .num 5)] = .ok made ∧
    asked .conv2d "channels_last" [("filters", .num 1), ("kernel_size", .num 1), ("activation", .num 5)] "activation" =
      .error .typeError ∧
    acts made "activation" = .str "linear" :=
  exists_ok (by decide +kernel)

/-- What is refused is not always beyond the layer: a dilation of one, written as a number or as a list,
and the last axis, written as TensorFlow's default does, are refused, although the layer without these
arguments does what they ask for. -/
theorem default_refused_false :
    construct .conv2d "channels_last" [("filters", .num 1), ("kernel_size", .num 1), ("dilation_rate", .num 1)] =
      .error .notImplemented ∧
    construct .conv2d "channels_last" [("filters", .num 1), ("kernel_size", .num 1), ("dilation_rate", .list [some 1, some 1])] =
      .error .notImplemented ∧
    construct .batchnorm "channels_last" [("axis", .num (-1))] = .error .valueError ∧
    ∀ g kw, kw.lookup "axis" = some (.num (-1)) ∨ kw.lookup "axis" = none →
      asked .batchnorm g kw "axis" = .ok (.num 3) := by
  refine ⟨by decide +kernel, by decide +kernel, by decide +kernel, fun g kw h => ?_⟩
  have e : value (documented .batchnorm) kw "axis" = .num (-1) := by
    unfold value
    rcases h with h | h <;> rw [h]
    rfl
  simp [asked, e, firstAxis, axisOf4]
  norm_num

end Verif.Keras.Args
