#!/usr/bin/env python3
# generates lean/Verif/Model/CharTables.lean from the character tables in /repo (read as text)
import re
out=['import Verif.Model.Bytes','/-','Character tables, transcribed by tools/gentables.py from the C++ initializers.','-/','namespace Libmorph','']
lines={'eng':{'charTypeMatrix':'37-117','toLoCaseMatrix':'119-160','toUpCaseMatrix':'162-203'},'rus':{'charTypeMatrix':'37-116','toLoCaseMatrix':'118-159','toUpCaseMatrix':'161-202'}}
for lang in ('eng','rus'):
    s=open(f'/repo/lang-{lang}/chartype.cpp',errors='replace').read()
    s=re.sub(r'//.*','',s); s=re.sub(r'/\*.*?\*/','',s,flags=re.S)
    for name in ('charTypeMatrix','toLoCaseMatrix','toUpCaseMatrix'):
        m=re.search(name+r'\s*\[\s*256\s*\]\s*=\s*\{(.*?)\}',s,re.S)
        items=[x.strip() for x in m.group(1).split(',') if x.strip()]
        d={'CapScheme::CT_CAPITAL':0,'CapScheme::CT_REGULAR':1,'CapScheme::CT_DLMCHAR':2,'CapScheme::CT_INVALID':3}
        vals=[d[x] if x in d else int(x,16) for x in items]
        assert len(vals)==256
        out.append(f'/-- lang-{lang}/chartype.cpp:{lines[lang][name]} `{name}`. -/')
        out.append(f'def {lang}{name[0].upper()+name[1:]} : List Byte := [')
        for i in range(0,256,16):
            out.append('  '+', '.join(str(v) for v in vals[i:i+16])+(',' if i<240 else ']'))
        out.append('')
out.append('end Libmorph')
open('/verif/lean/Verif/Model/CharTables.lean','w').write('\n'.join(out)+'\n')
