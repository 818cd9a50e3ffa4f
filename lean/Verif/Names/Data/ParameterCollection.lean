import Verif.Names.Data.Ids

/-!
# `python/triqs_tprf/ParameterCollection.py`

Written by `/verif/tools/names_extract.py`.
-/

set_option linter.style.nameCheck false

namespace Verif.Names.ParameterCollection

/-- ParameterCollection.py:31-170 `ParameterCollection` (class body) -/
def f_ParameterCollection : Fn where
  params := []
  isClass := true
  body :=
    block [
      .bind [n___init__],
      .bind [n_items],
      .bind [n_keys],
      .bind [n_dict],
      .bind [n_alter],
      .bind [n_copy],
      .bind [n___getitem__],
      .bind [n___reduce_to_dict__],
      .bind [n__clean_bools],
      .bind [n_convert_keys_from_string_to_python],
      .bind [n_grab_attribs],
      .use [n_classmethod],
      .bind [n___factory_from_dict__],
      .bind [n___str__],
      .use [n___str__],
      .bind [n___repr__],
      .bind [n_get_my_name]]

/-- ParameterCollection.py:73-74 `__init__` -/
def f_ParameterCollection___init__ : Fn where
  params := [n_self, n_kwargs]
  body :=
    .use [n_self, n_kwargs]

/-- ParameterCollection.py:76-77 `items` -/
def f_ParameterCollection_items : Fn where
  params := [n_self]
  body :=
    block [
      .use [n_list, n_self],
      .ret]

/-- ParameterCollection.py:79-80 `keys` -/
def f_ParameterCollection_keys : Fn where
  params := [n_self]
  body :=
    block [
      .use [n_list, n_self],
      .ret]

/-- ParameterCollection.py:82-83 `dict` -/
def f_ParameterCollection_dict : Fn where
  params := [n_self]
  body :=
    block [
      .use [n_self],
      .ret]

/-- ParameterCollection.py:85-94 `alter` -/
def f_ParameterCollection_alter : Fn where
  params := [n_self, n_kwargs]
  body :=
    block [
      .use [n_self],
      .bind [n_p],
      .use [n_p, n_kwargs, n_p],
      .ret]

/-- ParameterCollection.py:96-100 `copy` -/
def f_ParameterCollection_copy : Fn where
  params := [n_self]
  body :=
    block [
      .use [n_ParameterCollection, n_self],
      .bind [n_p],
      .use [n_p],
      .ret]

/-- ParameterCollection.py:102-103 `__getitem__` -/
def f_ParameterCollection___getitem__ : Fn where
  params := [n_self, n_key]
  body :=
    block [
      .use [n_self, n_key],
      .ret]

/-- ParameterCollection.py:105-106 `__reduce_to_dict__` -/
def f_ParameterCollection___reduce_to_dict__ : Fn where
  params := [n_self]
  body :=
    block [
      .use [n_self],
      .ret]

/-- ParameterCollection.py:108-114 `_clean_bools` -/
def f_ParameterCollection__clean_bools : Fn where
  params := [n_self]
  body :=
    block [
      .use [n_list, n_self],
      .loop .any
        (block [
          .bind [n_key, n_value],
          .use [n_type, n_value, n_np],
          .ite
            (.use [n_bool, n_value, n_self, n_key])
            (.skip)])
        (.skip)]

/-- ParameterCollection.py:116-125 `convert_keys_from_string_to_python` -/
def f_ParameterCollection_convert_keys_from_string_to_python : Fn where
  params := [n_self, n_dict_key]
  body :=
    block [
      .use [n_self, n_dict_key],
      .bind [n_d],
      .bind [n_d_fix],
      .use [n_list, n_d],
      .loop .any
        (block [
          .bind [n_key, n_value],
          .use [n_value, n_d_fix, n_eval, n_key]])
        (.skip),
      .use [n_d_fix, n_self, n_dict_key]]

/-- ParameterCollection.py:127-130 `grab_attribs` -/
def f_ParameterCollection_grab_attribs : Fn where
  params := [n_self, n_obj, n_keys]
  body :=
    block [
      .use [n_keys],
      .loop .any
        (block [
          .bind [n_key],
          .use [n_getattr, n_obj, n_key],
          .bind [n_val],
          .use [n_val, n_self, n_key]])
        (.skip)]

/-- ParameterCollection.py:133-137 `__factory_from_dict__` -/
def f_ParameterCollection___factory_from_dict__ : Fn where
  params := [n_cls, n_name, n_d]
  body :=
    block [
      .use [n_cls],
      .bind [n_ret],
      .use [n_ret, n_d, n_ret, n_ret],
      .ret]

/-- ParameterCollection.py:139-158 `__str__` -/
def f_ParameterCollection___str__ : Fn where
  params := [n_self]
  body :=
    block [
      .bind [n_out],
      .use [n_np, n_list, n_self],
      .bind [n_keys],
      .use [n_keys],
      .loop .any
        (block [
          .bind [n_key],
          .use [n_self, n_key],
          .bind [n_value],
          .use [n_type, n_value, n_ParameterCollection],
          .ite
            (block [
              .use [n_str, n_value],
              .bind [n_pc_list],
              .use [n_pc_list],
              .ite
                (.use [n_key])
                (.skip),
              .bind [n_pc_txt],
              .use [n_out, n_pc_txt],
              .bind [n_out]])
            (block [
              .use [n_str, n_value],
              .bind [n_str_value],
              .use [n_str_value],
              .bind [n_str_value_lines],
              .bind [n_max_lines],
              .use [n_len, n_str_value_lines, n_max_lines],
              .ite
                (block [
                  .use [n_str_value_lines, n_max_lines],
                  .bind [n_str_value]])
                (.skip),
              .use [n_out, n_key, n_str_value],
              .bind [n_out]])])
        (.skip),
      .use [n_out],
      .ret]

/-- ParameterCollection.py:162-170 `get_my_name` -/
def f_ParameterCollection_get_my_name : Fn where
  params := [n_self]
  body :=
    block [
      .bind [n_ans],
      .use [n_inspect],
      .bind [n_frame],
      .use [n_dict, n_list, n_frame, n_list, n_frame],
      .bind [n_tmp],
      .use [n_list, n_tmp],
      .loop .any
        (block [
          .bind [n_k, n_var],
          .use [n_isinstance, n_var, n_self],
          .ite
            (block [
              .use [n_hash, n_self, n_hash, n_var],
              .ite
                (.use [n_ans, n_k])
                (.skip)])
            (.skip)])
        (.skip),
      .use [n_ans],
      .ret]

/-- ParameterCollection.py:179-250 `ParameterCollections` (class body) -/
def f_ParameterCollections : Fn where
  params := []
  isClass := true
  body :=
    block [
      .bind [n___init__],
      .bind [n_append],
      .bind [n_sort_on],
      .bind [n_set_sorted_order],
      .bind [n_getattr_from_objects],
      .bind [n___getattr__],
      .bind [n___reduce_to_dict__],
      .use [n_classmethod],
      .bind [n___factory_from_dict__],
      .bind [n___iter__],
      .bind [n___next__],
      .bind [n___getitem__],
      .bind [n___str__],
      .use [n___str__],
      .bind [n___repr__]]

/-- ParameterCollection.py:205-206 `__init__` -/
def f_ParameterCollections___init__ : Fn where
  params := [n_self, n_objects]
  body :=
    .use [n_objects, n_self]

/-- ParameterCollection.py:208-209 `append` -/
def f_ParameterCollections_append : Fn where
  params := [n_self, n_obj]
  body :=
    .use [n_self, n_obj]

/-- ParameterCollection.py:211-214 `sort_on` -/
def f_ParameterCollections_sort_on : Fn where
  params := [n_self, n_attr]
  body :=
    block [
      .use [n_self, n_attr],
      .bind [n_val],
      .use [n_np, n_val],
      .bind [n_sidx],
      .use [n_self, n_sidx]]

/-- ParameterCollection.py:216-218 `set_sorted_order` -/
def f_ParameterCollections_set_sorted_order : Fn where
  params := [n_self, n_sorted_idx]
  body :=
    block [
      .use [n_np, n_sorted_idx],
      .bind [n_sidx],
      .use [n_list, n_np, n_self, n_sidx, n_self]]

/-- ParameterCollection.py:220-221 `getattr_from_objects` -/
def f_ParameterCollections_getattr_from_objects : Fn where
  params := [n_self, n_attr]
  body :=
    block [
      .use [n_np, n_self],
      .ite
        (.use [n_getattr, n_attr])
        (.skip),
      .ret]

/-- ParameterCollection.py:223-224 `__getattr__` -/
def f_ParameterCollections___getattr__ : Fn where
  params := [n_self, n_attr]
  body :=
    block [
      .use [n_self, n_attr],
      .ret]

/-- ParameterCollection.py:226-227 `__reduce_to_dict__` -/
def f_ParameterCollections___reduce_to_dict__ : Fn where
  params := [n_self]
  body :=
    block [
      .use [n_self],
      .ret]

/-- ParameterCollection.py:230-232 `__factory_from_dict__` -/
def f_ParameterCollections___factory_from_dict__ : Fn where
  params := [n_cls, n_name, n_d]
  body :=
    block [
      .use [n_cls, n_d],
      .bind [n_ret],
      .use [n_ret],
      .ret]

/-- ParameterCollection.py:234-235 `__iter__` -/
def f_ParameterCollections___iter__ : Fn where
  params := [n_self]
  body :=
    block [
      .use [n_self],
      .ret]

/-- ParameterCollection.py:237-238 `__next__` -/
def f_ParameterCollections___next__ : Fn where
  params := [n_self]
  body :=
    block [
      .use [n_self],
      .ret]

/-- ParameterCollection.py:240-241 `__getitem__` -/
def f_ParameterCollections___getitem__ : Fn where
  params := [n_self, n_idx]
  body :=
    block [
      .use [n_self, n_idx],
      .ret]

/-- ParameterCollection.py:243-248 `__str__` -/
def f_ParameterCollections___str__ : Fn where
  params := [n_self]
  body :=
    block [
      .bind [n_out],
      .use [n_self],
      .loop .any
        (block [
          .bind [n_p],
          .use [n_out, n_p],
          .bind [n_out],
          .use [n_out],
          .bind [n_out]])
        (.skip),
      .use [n_out],
      .ret]

/-- ParameterCollection.py:260-305 `parameter_scan` -/
def f_parameter_scan : Fn where
  params := [n_p, n_kwargs]
  body :=
    block [
      .bind [n_parameter_values],
      .use [n_kwargs],
      .loop .any
        (block [
          .bind [n_key, n_value],
          .use [n_parameter_values, n_zip, n_key, n_len, n_value, n_value]])
        (.skip),
      .bind [n_ps],
      .use [n_itertools, n_parameter_values],
      .loop .any
        (block [
          .bind [n_parameter_value],
          .use [n_ps, n_p, n_dict, n_parameter_value]])
        (.skip),
      .use [n_ParameterCollections, n_ps],
      .ret]

/-- ParameterCollection.py, all code of the module -/
def mod : Mod where
  top :=
    block [
      .bind [n_inspect],
      .bind [n_itertools],
      .bind [n_np],
      .use [n_object],
      .bind [n_ParameterCollection],
      .bind [n_register_class],
      .use [n_register_class, n_ParameterCollection, n_object],
      .bind [n_ParameterCollections],
      .bind [n_register_class],
      .use [n_register_class, n_ParameterCollections],
      .bind [n_parameter_scan]]
  fns := [f_ParameterCollection, f_ParameterCollection___init__, f_ParameterCollection_items, f_ParameterCollection_keys,
    f_ParameterCollection_dict, f_ParameterCollection_alter, f_ParameterCollection_copy, f_ParameterCollection___getitem__,
    f_ParameterCollection___reduce_to_dict__, f_ParameterCollection__clean_bools,
    f_ParameterCollection_convert_keys_from_string_to_python, f_ParameterCollection_grab_attribs,
    f_ParameterCollection___factory_from_dict__, f_ParameterCollection___str__, f_ParameterCollection_get_my_name,
    f_ParameterCollections, f_ParameterCollections___init__, f_ParameterCollections_append, f_ParameterCollections_sort_on,
    f_ParameterCollections_set_sorted_order, f_ParameterCollections_getattr_from_objects, f_ParameterCollections___getattr__,
    f_ParameterCollections___reduce_to_dict__, f_ParameterCollections___factory_from_dict__, f_ParameterCollections___iter__,
    f_ParameterCollections___next__, f_ParameterCollections___getitem__, f_ParameterCollections___str__, f_parameter_scan]

end Verif.Names.ParameterCollection
