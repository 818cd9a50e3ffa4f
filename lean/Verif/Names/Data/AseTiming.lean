import Verif.Names.Data.Ids

/-!
# `python/triqs_tprf/ase_timing.py`

Written by `/verif/tools/names_extract.py`.
-/

set_option linter.style.nameCheck false

namespace Verif.Names.AseTiming

/-- ase_timing.py:45-51 `function_timer` -/
def f_function_timer : Fn where
  params := [n_func, n_args, n_kwargs]
  body :=
    block [
      .use [n_kwargs, n_sys],
      .bind [n_out],
      .use [n_time],
      .bind [n_t1],
      .use [n_func, n_args, n_kwargs],
      .bind [n_r],
      .use [n_time],
      .bind [n_t2],
      .use [n_print, n_t2, n_t1, n_out, n_r],
      .ret]

/-- ase_timing.py:54-180 `Timer` (class body) -/
def f_Timer : Fn where
  params := []
  isClass := true
  body :=
    block [
      .bind [n___init__],
      .bind [n_print_info],
      .bind [n_start],
      .bind [n_stop],
      .bind [n___call__],
      .bind [n___enter__],
      .bind [n___exit__],
      .bind [n_get_time],
      .use [n_sys],
      .bind [n_write],
      .bind [n_add]]

/-- ase_timing.py:75-79 `__init__` -/
def f_Timer___init__ : Fn where
  params := [n_self, n_print_levels]
  body :=
    .use [n_self, n_time, n_self, n_self, n_print_levels, n_self]

/-- ase_timing.py:81-83 `print_info` -/
def f_Timer_print_info : Fn where
  params := [n_self, n_calc]
  body :=
    .skip

/-- ase_timing.py:85-88 `start` -/
def f_Timer_start : Fn where
  params := [n_self, n_name]
  body :=
    block [
      .use [n_tuple, n_self, n_name],
      .bind [n_names],
      .use [n_self, n_names, n_time, n_self, n_names, n_self, n_name]]

/-- ase_timing.py:90-100 `stop` -/
def f_Timer_stop : Fn where
  params := [n_self, n_name]
  body :=
    block [
      .use [n_name],
      .ite
        (block [
          .use [n_self],
          .bind [n_name]])
        (.skip),
      .use [n_tuple, n_self],
      .bind [n_names],
      .use [n_self],
      .bind [n_running],
      .use [n_name, n_running],
      .ite
        (block [
          .use [n_RuntimeError, n_name, n_running],
          .raise])
        (.skip),
      .use [n_self, n_names, n_time, n_names],
      .ret]

/-- ase_timing.py:102-116 `__call__` -/
def f_Timer___call__ : Fn where
  params := [n_self, n_name]
  body :=
    block [
      .use [n_self, n_name, n_self],
      .ret]

/-- ase_timing.py:118-119 `__enter__` -/
def f_Timer___enter__ : Fn where
  params := [n_self]
  body :=
    .skip

/-- ase_timing.py:121-122 `__exit__` -/
def f_Timer___exit__ : Fn where
  params := [n_self, n_args]
  body :=
    .use [n_self]

/-- ase_timing.py:124-125 `get_time` -/
def f_Timer_get_time : Fn where
  params := [n_self, n_names]
  body :=
    block [
      .use [n_self, n_names],
      .ret]

/-- ase_timing.py:127-176 `write` -/
def f_Timer_write : Fn where
  params := [n_self, n_out]
  body :=
    block [
      .use [n_list, n_self],
      .bind [n_were_running],
      .loop .any
        (.use [n_self, n_self])
        (.use [n_self]),
      .use [n_len, n_self],
      .ite
        (.ret)
        (.skip),
      .use [n_time],
      .bind [n_t0],
      .use [n_t0, n_self],
      .bind [n_tot],
      .use [n_max, n_self],
      .ite
        (.use [n_len, n_len])
        (.skip),
      .bind [n_n],
      .use [n_n],
      .bind [n_line],
      .use [n_out, n_n, n_out, n_line, n_tot],
      .bind [n_tother],
      .use [n_self],
      .bind [n_inclusive],
      .use [n_self],
      .bind [n_exclusive],
      .use [n_sorted, n_exclusive],
      .bind [n_keys],
      .use [n_keys],
      .loop .any
        (block [
          .bind [n_names],
          .use [n_exclusive, n_names],
          .bind [n_t],
          .use [n_len, n_names],
          .ite
            (block [
              .use [n_len, n_names, n_self],
              .ite
                (.use [n_exclusive, n_names, n_t])
                (.skip)])
            (block [
              .use [n_tother, n_t],
              .bind [n_tother]])])
        (.skip),
      .use [n_tother, n_exclusive, n_tother, n_inclusive, n_keys, n_keys],
      .loop .any
        (block [
          .bind [n_names],
          .use [n_exclusive, n_names],
          .bind [n_t],
          .use [n_inclusive, n_names],
          .bind [n_tinclusive],
          .use [n_t, n_tot],
          .bind [n_r],
          .use [n_r],
          .bind [n_p],
          .use [n_int, n_r],
          .bind [n_i],
          .use [n_i],
          .ite
            (.bind [n_bar])
            (block [
              .use [n_i],
              .bind [n_bar]]),
          .use [n_len, n_names],
          .bind [n_level],
          .use [n_level, n_self],
          .ite
            (.cont)
            (.skip),
          .use [n_level, n_names],
          .bind [n_name],
          .use [n_out, n_n, n_name, n_tinclusive, n_t, n_p, n_bar]])
        (.skip),
      .use [n_out, n_line, n_out, n_n, n_tot, n_were_running],
      .loop .any
        (block [
          .bind [n_name],
          .use [n_self, n_name]])
        (.skip)]

/-- ase_timing.py:178-180 `add` -/
def f_Timer_add : Fn where
  params := [n_self, n_timer]
  body :=
    block [
      .use [n_timer],
      .loop .any
        (block [
          .bind [n_name, n_t],
          .use [n_self, n_name, n_t, n_self, n_name]])
        (.skip)]

/-- ase_timing.py:183-212 `timer` (class body) -/
def f_timer : Fn where
  params := []
  isClass := true
  body :=
    block [
      .bind [n___init__],
      .bind [n___call__]]

/-- ase_timing.py:199-200 `__init__` -/
def f_timer___init__ : Fn where
  params := [n_self, n_name]
  body :=
    .use [n_name, n_self]

/-- ase_timing.py:202-212 `__call__` -/
def f_timer___call__ : Fn where
  params := [n_self, n_method]
  body :=
    block [
      .use [n_functools, n_method],
      .clo [n_method, n_self],
      .bind [n_new_method],
      .use [n_new_method],
      .ret]

/-- ase_timing.py:204-211 `new_method` -/
def f_timer___call___new_method : Fn where
  params := [n_slf, n_args, n_kwargs]
  outer := [n_method, n_self]
  body :=
    block [
      .use [n_slf, n_self, n_method, n_slf, n_args, n_kwargs],
      .bind [n_x],
      .tryE
        (.use [n_slf])
        (block [
          .use [n_IndexError],
          .ite
            (.skip)
            (.raise)])
        (.skip),
      .use [n_x],
      .ret]

/-- ase_timing.py, all code of the module -/
def mod : Mod where
  top :=
    block [
      .bind [n_print_function],
      .bind [n_sys],
      .bind [n_time],
      .bind [n_functools],
      .bind [n_function_timer],
      .bind [n_Timer],
      .bind [n_timer]]
  fns := [f_function_timer, f_Timer, f_Timer___init__, f_Timer_print_info, f_Timer_start, f_Timer_stop, f_Timer___call__,
    f_Timer___enter__, f_Timer___exit__, f_Timer_get_time, f_Timer_write, f_Timer_add, f_timer, f_timer___init__,
    f_timer___call__, f_timer___call___new_method]

end Verif.Names.AseTiming
